{
 "claims": [
  {
   "property": "C01",
   "status": "proved",
   "theorems": [
    "Verif.Props.C01_generated_mpo_exact",
    "Verif.Props.C01_generated_mpo",
    "Verif.Props.C01_gen_returns_sum",
    "Verif.Props.C01_duplicate_one_site_term_lost"
   ],
   "note": "Exact value for every AddTerm history; the code drops a one-site term equal to the current entry, shown by a witness and captured by `collides`."
  },
  {
   "property": "C02",
   "status": "proved",
   "theorems": [
    "Verif.Props.C02_compression_preserves_operator",
    "Verif.Props.C02_compression_preserves_operator_any_labels"
   ],
   "note": ""
  },
  {
   "property": "C03",
   "status": "proved",
   "theorems": [
    "Verif.Props.C03_compression_never_aborts"
   ],
   "note": ""
  },
  {
   "property": "C04",
   "status": "proved",
   "theorems": [
    "Verif.Props.C04_bond_dimensions"
   ],
   "note": ""
  },
  {
   "property": "C05",
   "status": "proved",
   "theorems": [
    "Verif.Props.C05_state_numbering"
   ],
   "note": ""
  },
  {
   "property": "C06",
   "status": "proved",
   "theorems": [
    "Verif.Props.C06_addTerm_order_independent"
   ],
   "note": ""
  },
  {
   "property": "C07",
   "status": "proved",
   "theorems": [
    "Verif.Props.C07_sign_normalisation",
    "Verif.Props.C07_single_term"
   ],
   "note": ""
  },
  {
   "property": "C08",
   "status": "proved",
   "theorems": [
    "Verif.Props.C08_string_between",
    "Verif.Props.C08_string_tail_exact",
    "Verif.Props.C08_tail_sign_violated",
    "Verif.Props.C08_explicit_sites"
   ],
   "note": "The tail variant is proved exactly as the code behaves; a witness shows the sign violation."
  },
  {
   "property": "C09",
   "status": "proved",
   "theorems": [
    "Verif.Props.C09_labels_stable_injective",
    "Verif.Props.C09_label_zero_is_one"
   ],
   "note": ""
  },
  {
   "property": "C10",
   "status": "proved",
   "theorems": [
    "Verif.Props.C10_sparse_matrix_refines_table",
    "Verif.Props.C10_equality"
   ],
   "note": ""
  },
  {
   "property": "C11",
   "status": "proved",
   "theorems": [
    "Verif.Props.C11_coef_sound",
    "Verif.Props.C11_op_sound",
    "Verif.Props.C11_split_sound"
   ],
   "note": ""
  },
  {
   "property": "C12",
   "status": "proved",
   "theorems": [
    "Verif.Props.C12_column_grouping",
    "Verif.Props.C12_one_bond"
   ],
   "note": ""
  },
  {
   "property": "C13",
   "status": "proved",
   "theorems": [
    "Verif.Props.C13_gen_safe_iff_some_term"
   ],
   "note": ""
  },
  {
   "property": "C14",
   "status": "proved",
   "theorems": [
    "Verif.Props.C14_centralize",
    "Verif.Props.C14_canonical_form",
    "Verif.Props.C14_left_step_local",
    "Verif.Props.C14_right_step_local"
   ],
   "note": "QR and SVD are parameters assumed to satisfy QRSpec/SVDSpec (factorisation and isometry); truncation is not applied by Centralize."
  },
  {
   "property": "C15",
   "status": "proved",
   "theorems": [
    "Verif.Props.C15_flags_truthful",
    "Verif.Props.C15_center_truthful",
    "Verif.Props.C15_load_keeps_stale_flag",
    "Verif.Props.C14_canonical_form"
   ],
   "note": "Proved for histories without LoadTen; a witness shows that LoadTen violates it."
  },
  {
   "property": "C16",
   "status": "proved",
   "theorems": [
    "Verif.Props.C16_containers_are_values",
    "Verif.Props.C16_unique_ownership",
    "Verif.Props.C16_all_freed_exactly_once",
    "Verif.Props.C16_self_assignment_clears",
    "Verif.Props.C16_self_assignment_violated",
    "Verif.Props.C16_copy_is_deep",
    "Verif.Props.C16_moved_from_is_empty"
   ],
   "note": "Self copy-assignment is refuted with a witness and characterised exactly."
  },
  {
   "property": "C17",
   "status": "proved",
   "theorems": [
    "Verif.Props.C17_reverse",
    "Verif.Props.C17_reverse_state",
    "Verif.Props.C17_reverse_twice"
   ],
   "note": ""
  },
  {
   "property": "C18",
   "status": "proved",
   "theorems": [
    "Verif.Props.C18_sweeps",
    "Verif.Props.C19_final_mps",
    "Verif.Props.C18_two_sites_violation"
   ],
   "note": "Any number of sweeps between any two boundary sites refines the file-free specification optSweeps, in which every pair is optimised in the exact environments of the current MPS; no load fails and no null tensor is used; the environment files are restored. Two sites without temporary directory: assertion failure (proved)."
  },
  {
   "property": "C19",
   "status": "proved",
   "theorems": [
    "Verif.Props.C19_final_mps",
    "Verif.Props.C18_sweeps"
   ],
   "note": "Serial TwoSiteFiniteVMPS for N >= 3, with and without existing environments, every number of sweeps including 0; C18_sweeps covers the sweeps of the MPI master between boundaries."
  },
  {
   "property": "C20",
   "status": "proved",
   "theorems": [
    "Verif.Props.C20_init_envs",
    "Verif.Props.C20_boundary_envs",
    "Verif.Props.C20_vmps_run"
   ],
   "note": "InitEnvs for every update_site_num < N; FiniteVMPSInit with boundary tensors, NeedGenerateRightEnvs and UpdateBoundaryEnvs; the whole program with boundaries."
  },
  {
   "property": "C21",
   "status": "proved",
   "theorems": [
    "Verif.Props.C21_boundaries",
    "Verif.Props.C21_check",
    "Verif.Props.C21_two_sites_violation"
   ],
   "note": "The bond-dimension profile is an arbitrary predicate per site. N >= 3 is proved safe; for N = 2 the file of site 1 is proved to be overwritten."
  },
  {
   "property": "C22",
   "status": "proved",
   "theorems": [
    "Verif.Props.C22_restart",
    "Verif.Props.C22_restart_sweeps",
    "Verif.Props.C22_no_stale_environment",
    "Verif.Props.C22_mixed_state_violation"
   ],
   "note": "Every crash point including torn files, during initialisation and during the sweeps. The restart uses environments consistent with the tensors on disk or fails at a load. The MPS on disk after a crash may be one the algorithm never had (witness)."
  },
  {
   "property": "C23",
   "status": "proved",
   "theorems": [
    "Verif.Props.C23_single_site"
   ],
   "note": "N >= 2, with or without an existing temporary directory, any number of sweeps, any numerical kernel that keeps the outer legs."
  },
  {
   "property": "C24",
   "status": "proved",
   "theorems": [
    "Verif.Props.C24_sweeps",
    "Verif.Props.C24_noised"
   ],
   "note": "Sweeps over any boundary range, and the whole program with FiniteVMPSInit."
  },
  {
   "property": "C25",
   "status": "proved",
   "theorems": [
    "Verif.Props.C25_single_site",
    "Verif.Props.C25_two_site",
    "Verif.Props.C25_empty_violation",
    "Verif.Props.C25_preset",
    "Verif.Props.C25_zero"
   ],
   "note": "For any arithmetic satisfying the stated order laws (exact and monotonically rounded arithmetic are instances). An empty noise list reads outside the vector (refuted with a theorem)."
  },
  {
   "property": "C26",
   "status": "proved",
   "theorems": [
    "Verif.Props.C26_run",
    "Verif.Props.C28_soft_stop"
   ],
   "note": "Component files per block operator, boundaries, initialisation, any number of sweeps, post-processing; a soft stop at any look is included."
  },
  {
   "property": "C27",
   "status": "proved",
   "theorems": [
    "Verif.Props.C27_emergency",
    "Verif.Props.C27_resume",
    "Verif.Props.C27_late_partial",
    "Verif.Props.C27_violation"
   ],
   "note": "Proved for every signal the sweep sees before its last look; a later signal is refuted with a witness (C27_violation) and C27_late_partial says what remains."
  },
  {
   "property": "C28",
   "status": "proved",
   "theorems": [
    "Verif.Props.C28_soft_stop",
    "Verif.Props.C26_run"
   ],
   "note": ""
  },
  {
   "property": "C29",
   "status": "proved",
   "theorems": [
    "Verif.Props.C29_times",
    "Verif.Props.C29_symmetric"
   ],
   "note": "The schedule is the one the modelled sweep executes (C30_tdvp)."
  },
  {
   "property": "C30",
   "status": "proved",
   "theorems": [
    "Verif.Props.C30_tdvp",
    "Verif.Props.C30_no_stale_environment",
    "Verif.Props.C30_tdvp_mpi",
    "Verif.Props.C30_no_stale_environment_mpi",
    "Verif.Props.C30_two_sites_violation"
   ],
   "note": "Whole run for every N >= 3 and number of steps; for two sites the code dereferences a null pointer (proved)."
  },
  {
   "property": "C31",
   "status": "proved",
   "theorems": [
    "Verif.Props.C31_measurement",
    "Verif.Props.C31_results",
    "Verif.Props.C31_all_cells",
    "Verif.Props.C31_without_correlations_violation"
   ],
   "note": "With local_op_corr the result array is exactly filled; without it the code writes out of range (proved)."
  },
  {
   "property": "C32",
   "status": "proved",
   "theorems": [
    "Verif.Props.C32_lanczos",
    "Verif.Props.C32_small_limit_violation",
    "Verif.Props.C32_expmv"
   ],
   "note": "Ground-state solver (serial and MPI variants) and the exponential solver; max_iterations 0 and 1 are refuted."
  },
  {
   "property": "C33",
   "status": "proved",
   "theorems": [
    "Verif.Props.C33_lanczos",
    "Verif.Props.C33_expmv"
   ],
   "note": "Heap with a multiset of live objects; the returned vector is the only live one at exit."
  },
  {
   "property": "C34",
   "status": "proved",
   "theorems": [
    "Verif.Props.C34_tasks_once",
    "Verif.Props.loop_ends"
   ],
   "note": "All five master/worker loops (VMPS/TDVP product, environment growth, noised expansion, DMRG dynamic product, DMRG operator generation), any number of tasks, any number of workers >= 1, buffered or synchronous sends. A tensor is one message."
  },
  {
   "property": "C35",
   "status": "proved",
   "theorems": [
    "Verif.Props.C35_no_deadlock",
    "Verif.Props.loop_ends",
    "Verif.Props.C35_single_process_hangs"
   ],
   "note": "Same loops and generality. A single process without workers is proved to hang; the MPI TDVP entry point does not guard against it."
  },
  {
   "property": "C36",
   "status": "proved",
   "theorems": [
    "Verif.Props.C36_schedule_independent",
    "Verif.Props.C36_product",
    "Verif.Props.C36_static"
   ],
   "note": "For any commutative addition (exact arithmetic; floating-point addition is not commutative-associative). C36_static covers the later products of a DMRG update."
  },
  {
   "property": "C37",
   "status": "proved",
   "theorems": [
    "Verif.Props.C37_dynamic_terms",
    "Verif.Props.C37_init_operators"
   ],
   "note": ""
  },
  {
   "property": "C38",
   "status": "proved",
   "theorems": [
    "Verif.Props.C38_jobs",
    "Verif.Props.C38_vmps",
    "Verif.Props.C38_tdvp"
   ],
   "note": "Two-site VMPS (with and without noise) and two-site TDVP: all interleavings of master and workers, buffered or synchronous sends, any Lanczos iteration counts; every run ends, no rank receives an unexpected message or order, temporaries are freed exactly once, and the master's memory equals that of the serial specification (Verif.Mpi.OrdersSpec). The numerical part and the parallel SVD of the tensor library are parameters with stated laws. The conditions 'at least two Lanczos iterations' and 'at least one worker' are needed (see C57 and C39)."
  },
  {
   "property": "C39",
   "status": "proved",
   "theorems": [
    "Verif.Props.C39_pairs_kept",
    "Verif.Props.C39_operators_in_place"
   ],
   "note": ""
  },
  {
   "property": "C40",
   "status": "proved",
   "theorems": [
    "Verif.Props.C40_sweeps",
    "Verif.Props.C40_program"
   ],
   "note": "Small-step semantics of the main thread and the two std::thread objects; every interleaving is race free (footprints of the operations are proved, not assumed), deadlock free, ends, and leaves the files of the serial sweep. Operations on a file or tensor slot are atomic in the model; race freedom is what justifies that."
  },
  {
   "property": "C41",
   "status": "proved",
   "theorems": [
    "Verif.Props.C41_exact",
    "Verif.Props.C41_inclusion",
    "Verif.Props.C41_out_of_bounds_violation"
   ],
   "note": "Exact behaviour for all inputs; inclusion for duplicate-free inputs; a witness for the out-of-bounds read."
  },
  {
   "property": "C42",
   "status": "proved",
   "theorems": [
    "Verif.Props.C42_direct",
    "Verif.Props.C42_zero_div",
    "Verif.Props.C42_zero_div_single_site",
    "Verif.Props.C42_direct_state",
    "Verif.Props.C42_zero_div_state",
    "Verif.Props.C42_extended"
   ],
   "note": "The random-filled and the extended initialisations are modelled on bond structure and flux; the product-state initialisers also on amplitudes."
  },
  {
   "property": "C43",
   "status": "proved",
   "theorems": [
    "Verif.Props.C52_disk_one_site",
    "Verif.Props.C52_disk_selected_sites",
    "Verif.Props.C52_disk_two_site",
    "Verif.Props.C52_disk_two_site_all",
    "Verif.Props.C43_four_site_memory",
    "Verif.Props.C43_four_site_violation"
   ],
   "note": "The directory is a read-only argument of the modelled functions, so it cannot change. The four-site variant is characterised exactly and refuted with a witness."
  },
  {
   "property": "C44",
   "status": "proved",
   "theorems": [
    "Verif.Props.C44_product",
    "Verif.Props.C44_no_update",
    "Verif.Props.C44_short"
   ],
   "note": "Dense values; the truncated split of the two-site tensor is a parameter with its specification (isometry and projection, at most Dmax directions), instantiated; the convergence test is an arbitrary function. N = 2 or zero sweeps: refuted (C44_no_update). N < 2: undefined behaviour (C44_short). The speed of convergence is not modelled."
  },
  {
   "property": "C45",
   "status": "proved",
   "theorems": [
    "Verif.Props.C45_missing",
    "Verif.Props.C45_wrong_type",
    "Verif.Props.C45_right_type",
    "Verif.Props.C45_try",
    "Verif.Props.C45_try_sizes",
    "Verif.Props.C45_floats",
    "Verif.Props.C45_sizes_violation",
    "Verif.Props.C45_int_violation"
   ],
   "note": "All eight lookups in their three variants, on top of the conversion rules of the bundled JSON library. ParseSizeTVec accepts negative and fractional entries and ParseInt truncates fractions, converts booleans and is undefined for large floating-point numbers (witnesses)."
  },
  {
   "property": "C46",
   "status": "proved",
   "theorems": [
    "Verif.Props.C46_infinite_machine_accepts_no_term"
   ],
   "note": "The desired behaviour is refuted for every input."
  },
  {
   "property": "C47",
   "status": "proved",
   "theorems": [
    "Verif.Props.C47_two_operator_overload",
    "Verif.Props.C47_one_operator"
   ],
   "note": ""
  },
  {
   "property": "C48",
   "status": "proved",
   "theorems": [
    "Verif.Props.C48_inner_product",
    "Verif.Props.C48_conjugate_symmetric"
   ],
   "note": ""
  },
  {
   "property": "C49",
   "status": "proved",
   "theorems": [
    "Verif.Props.C49_sum",
    "Verif.Props.C49_single_site_wrong",
    "Verif.Props.C49_in_place_fails"
   ],
   "note": "Proved for N >= 2 and a separate result object; the two failing cases are refuted with witnesses."
  },
  {
   "property": "C50",
   "status": "proved",
   "theorems": [
    "Verif.Props.C50_one_site_values"
   ],
   "note": "QR/SVD are parameters satisfying QRSpec/SVDSpec."
  },
  {
   "property": "C51",
   "status": "proved",
   "theorems": [
    "Verif.Props.C51_multi_site_values",
    "Verif.Props.C51_multi_site_values_uniform",
    "Verif.Props.C51_two_site_strings",
    "Verif.Props.C51_equal_sites_fail"
   ],
   "note": "QR/SVD are parameters satisfying QRSpec/SVDSpec."
  },
  {
   "property": "C52",
   "status": "proved",
   "theorems": [
    "Verif.Props.C52_disk_one_site",
    "Verif.Props.C52_disk_selected_sites",
    "Verif.Props.C52_disk_two_site",
    "Verif.Props.C52_disk_two_site_all",
    "Verif.Props.C52_disk_four_site"
   ],
   "note": "QR is a parameter satisfying QRSpec."
  },
  {
   "property": "C53",
   "status": "proved",
   "theorems": [
    "Verif.Props.C53_nested_runs",
    "Verif.Props.C53_violation"
   ],
   "note": "Holds for every sequence of runs with non-growing ranges; violated by the unchanged code for ranges 0..6, 2..4, 0..6 on seven sites (witness)."
  },
  {
   "property": "C54",
   "status": "proved",
   "theorems": [
    "Verif.Props.C54_no_stale_environment",
    "Verif.Props.C54_restart",
    "Verif.Props.C54_noised_no_stale_environment",
    "Verif.Props.C54_threads_no_stale_environment"
   ],
   "note": "Every prefix of the operations and every torn write."
  },
  {
   "property": "C55",
   "status": "proved",
   "theorems": [
    "Verif.Props.C55_restart_mpi",
    "Verif.Props.C55_restart_noised",
    "Verif.Props.C55_restart_threads",
    "Verif.Props.C55_init_crash_violation"
   ],
   "note": "Crash in the sweeps, nested ranges; the violation theorem shows that a crash inside FiniteVMPSInit is not covered by such a guarantee in the code."
  },
  {
   "property": "C56",
   "status": "proved",
   "theorems": [
    "Verif.Props.C56_energy",
    "Verif.Props.C56_no_sweeps_violation"
   ],
   "note": ""
  },
  {
   "property": "C57",
   "status": "proved",
   "theorems": [
    "Verif.Props.C57_lanczos",
    "Verif.Props.C57_never_worse",
    "Verif.Props.C57_converged",
    "Verif.Props.solver_exists"
   ],
   "note": "Exact arithmetic; the tridiagonal eigensolver is a parameter with LAPACK's specification, proved satisfiable. Fermionic sign conventions of the tensor library are not modelled."
  },
  {
   "property": "C58",
   "status": "proved",
   "theorems": [
    "Verif.Props.C58_expmv",
    "Verif.Props.C58_exact",
    "Verif.Props.C58_exact_full",
    "Verif.Props.C58_mpi_norm_violation",
    "Verif.Props.eig_exists"
   ],
   "note": "Exact arithmetic; LAPACK's dstev is a parameter with its specification, proved satisfiable."
  },
  {
   "property": "C59",
   "status": "proved",
   "theorems": [
    "Verif.Props.C59_prepare",
    "Verif.Props.C59_right_canonical",
    "Verif.Props.C59_without_correlations_violation"
   ],
   "note": "With local_op_corr off the code loads the file of site_0 into the last slot; the failure is proved."
  },
  {
   "property": "C61",
   "status": "proved",
   "theorems": [
    "Verif.Props.C61_second_execute_violation"
   ],
   "note": "Refuted for every chain length >= 3 and every configuration: after any complete run the next one fails the assertion."
  },
  {
   "property": "C62",
   "status": "proved",
   "theorems": [
    "Verif.Props.C62_update",
    "Verif.Props.C62_lower_bound",
    "Verif.Props.C62_truncation",
    "Verif.Props.C62_monotone",
    "Verif.Props.C62_run",
    "Verif.Props.C62_program"
   ],
   "note": "Dense tensors over the reals or complex numbers, exact arithmetic; truncated SVD and LAPACK's tridiagonal solver are parameters with their specifications, both instantiated (a truncating and a complete decomposition). Needs max_iterations >= 2 (C32) and that no non-zero block is truncated to zero. Holds for the serial sweep on disk (C62_run, through C19), for any range of sites, and for the whole program with the changes of gauge at the ends of the chain (C62_program, through C20)."
  },
  {
   "property": "C63",
   "status": "proved",
   "theorems": [
    "Verif.Props.C63_task_and_terms",
    "Verif.Props.C63_operators"
   ],
   "note": "By a general theorem on programs without wildcard receives (sync_determines). A tensor is one message."
  },
  {
   "property": "C64",
   "status": "proved",
   "theorems": [
    "Verif.Props.C64_second_call_violation"
   ],
   "note": "Refuted for every chain length >= 3, every configuration and every interleaving."
  },
  {
   "property": "C65",
   "status": "proved",
   "theorems": [
    "Verif.Props.C65_product",
    "Verif.Props.C65_product_in_place",
    "Verif.Props.C65_identity",
    "Verif.Props.C65_scale",
    "Verif.Props.C65_all_scale",
    "Verif.Props.C65_add",
    "Verif.Props.C65_add_self",
    "Verif.Props.C65_add_single_site_violation",
    "Verif.Props.C65_trace",
    "Verif.Props.C65_centralize",
    "Verif.Props.C65_flags_truthful",
    "Verif.Props.C65_normalize",
    "Verif.Props.C65_normalize_unit",
    "Verif.Props.C65_normalize_uncentred_violation",
    "Verif.Props.C65_all_scale_violation",
    "Verif.Props.C65_dump_load",
    "Verif.Props.C65_load_violation"
   ],
   "note": "Dense values; QR, SVD, truncated SVD and tensor normalisation are parameters with their specifications, all proved satisfiable. Holds for N >= 2 and calls that go through the class; refuted with witnesses for the sum on one site, Normalize without a centre, MpoAllScale, Load of an uncentralised directory, and a product written into one of its operands."
  },
  {
   "property": "C66",
   "status": "proved",
   "theorems": [
    "Verif.Props.C66_truncate",
    "Verif.Props.C66_truncate_short",
    "Verif.Props.C66_error_bound"
   ],
   "note": "Dense values; the truncated SVD is a parameter (right isometry, projection, discarded weight), with a truncating instance. The rounding of the printed numbers is not modelled."
  },
  {
   "property": "C67",
   "status": "proved",
   "theorems": [
    "Verif.Props.C67_truncate",
    "Verif.Props.C67_truncate_short"
   ],
   "note": "Dense values; truncated SVD, normalisation of a tensor and of the diagonal are parameters with their specifications; a truncating instance over the reals is given."
  },
  {
   "property": "C68",
   "status": "proved",
   "theorems": [
    "Verif.Props.C68_exp",
    "Verif.Props.C68_taylor",
    "Verif.Props.C68_no_update"
   ],
   "note": "Dense values, exact arithmetic; the tensor library is a parameter with its specification (ExpLibSpec), instantiated over the rationals. C68_exp covers all three outcomes: result, failing assertion (a term of even order whose trace is not positive), undefined behaviour (a zero term). Two sites or zero sweeps with compression: refuted (C68_no_update). The order of the last term is max_taylor_order - 1."
  },
  {
   "property": "C69",
   "status": "proved",
   "theorems": [
    "Verif.Props.C69_operators",
    "Verif.Props.C69_fermion_operators",
    "Verif.Props.C69_hubbard_hopping",
    "Verif.Props.C69_same_site",
    "Verif.Props.fock_anticommutation"
   ],
   "note": "Specification: second quantisation in the occupation basis (FockSpec), proved to satisfy the anticommutation relations. Exact arithmetic over any field. C69_hubbard_hopping assumes that t and -t are not negligible."
  },
  {
   "property": "C70",
   "status": "proved",
   "theorems": [
    "Verif.Props.C70_operators",
    "Verif.Props.C70_tJ_hopping",
    "Verif.Props.C70_same_site",
    "Verif.Props.C70_composite_exact",
    "Verif.Props.C70_composite_violation"
   ],
   "note": "The two composite operators are exchanged in the code (C70_composite_violation, with the exact behaviour in C70_composite_exact). Complex amplitudes: any field with an involution."
  },
  {
   "property": "C71",
   "status": "proved",
   "theorems": [
    "Verif.Props.C71_operators",
    "Verif.Props.C71_heisenberg_hubbard",
    "Verif.Props.C71_heisenberg_tJ",
    "Verif.Props.C71_heisenberg_spin",
    "Verif.Props.C71_same_site"
   ],
   "note": "A spin-1/2 site is specified as a site with exactly one particle."
  },
  {
   "property": "C72",
   "status": "proved",
   "theorems": [
    "Verif.Props.C72_charges_hubbard",
    "Verif.Props.C72_charges_tJ",
    "Verif.Props.C72_hubbard_hamiltonian",
    "Verif.Props.C72_tJ_hamiltonian",
    "Verif.Props.C72_spin_hamiltonian"
   ],
   "note": "On top of C01_gen_returns_sum. Exact arithmetic over any field of characteristic zero; which numbers are negligible is a parameter."
  },
  {
   "property": "C73",
   "status": "proved",
   "theorems": [
    "Verif.Props.C73_evolution",
    "Verif.Props.C73_conserved",
    "Verif.Props.C73_mpi_normalises"
   ],
   "note": "Dense complex tensors, exact arithmetic; truncated SVD and LAPACK's tridiagonal eigensolver are parameters with their specifications, instantiated. Needs max_iterations >= 2 and that no non-zero block is truncated to zero. Through C30 to the files on disk; the order and durations of the evolutions are C29. The error of the splitting between the evolutions, which is inherent in the method, is not bounded."
  },
  {
   "property": "C74",
   "status": "proved",
   "theorems": [
    "Verif.Props.C74_mpo",
    "Verif.Props.C74_hubbard_mpo",
    "Verif.Props.C74_tJ_mpo",
    "Verif.Props.C74_spin_mpo",
    "Verif.Props.C74_hubbard_vmps",
    "Verif.Props.C74_tJ_vmps",
    "Verif.Props.C74_spin_vmps",
    "Verif.Props.C74_hubbard_tdvp",
    "Verif.Props.C74_tJ_tdvp",
    "Verif.Props.C74_spin_tdvp"
   ],
   "note": "Composition of C01/C72, the tensor assembly of Gen, and C62/C73, with their assumptions. Dense tensors, exact arithmetic; which numbers are negligible is a parameter."
  },
  {
   "property": "C75",
   "status": "proved",
   "theorems": [
    "Verif.Props.C75_mat_repr",
    "Verif.Props.C75_super_block",
    "Verif.Props.C75_run",
    "Verif.Props.C75_emergency",
    "Verif.Props.C75_hubbard_dmrg",
    "Verif.Props.C75_tJ_dmrg",
    "Verif.Props.C75_spin_dmrg"
   ],
   "note": "Dense tensors over the reals or complex numbers, exact arithmetic; QR, truncated SVD and LAPACK's tridiagonal solver are parameters with their specifications, instantiated. Default-constructed tensors and unequal legs are a distinct outcome and are shown not to occur. On top of C26 to C28 for the files and signals; the race C27_violation is excluded by the hypotheses on when the flag is seen."
  },
  {
   "property": "C76",
   "status": "proved",
   "theorems": [
    "Verif.Props.C76_run",
    "Verif.Props.C76_files",
    "Verif.Props.C76_product",
    "Verif.Props.C76_variational"
   ],
   "note": "Whole programs of master and workers: initialisation (both branches), dynamic first product, static products, decomposition, growth of block operators, final order. In C76_run and C76_files the numerical work is abstract, in C76_product and C76_variational it is that of dense tensors over the reals or complex numbers (the Lanczos solver of the master as a machine fed with products, undefined tensors as a distinct value); assumed: the overlap is additive (exact arithmetic), Lanczos stops within max_iterations, the parallel decomposition returns the serial one's result. A broadcast is one message per worker, a bundle of terms one message (C63 treats the parts). Signals: the MPI executor has no handler."
  },
  {
   "property": "C77",
   "status": "proved",
   "theorems": [
    "Verif.Props.C77_update",
    "Verif.Props.C77_alive_silent",
    "Verif.Props.C77_alive_nocut",
    "Verif.Props.C77_lower_bound",
    "Verif.Props.C77_energy",
    "Verif.Props.C77_monotone",
    "Verif.Props.C77_run",
    "Verif.Props.C77_adaptive",
    "Verif.Props.C77_no_noise",
    "Verif.Props.C77_noise_violation"
   ],
   "note": "Dense tensors over the reals or complex numbers, exact arithmetic; truncated SVD and LAPACK's tridiagonal solver are parameters with their specifications, both instantiated. Through C23 to the files. The noises are arbitrary; C77_adaptive shows that those chosen by the program are one such sequence. That the state does not become zero is a hypothesis where noise and truncation come together, because there it can (C77_noise_violation)."
  },
  {
   "property": "C78",
   "status": "proved",
   "theorems": [
    "Verif.Props.C78_update",
    "Verif.Props.C78_alive_silent",
    "Verif.Props.C78_alive_nocut",
    "Verif.Props.C78_lower_bound",
    "Verif.Props.C78_energy",
    "Verif.Props.C78_monotone",
    "Verif.Props.C78_run",
    "Verif.Props.C78_run_alive",
    "Verif.Props.C78_adaptive",
    "Verif.Props.C78_no_noise",
    "Verif.Props.C78_noise_violation"
   ],
   "note": "Dense tensors over the reals or complex numbers, exact arithmetic; QR, truncated SVD and LAPACK's tridiagonal solver are parameters with their specifications, all instantiated. Through C24 to the files. Which expansions are skipped (IsQNCovered, C41) is an arbitrary predicate, which components an expansion appends an arbitrary list, and the MPO tensor of the expansion an arbitrary one, because the theorems do not depend on them. The noises are arbitrary; C78_adaptive shows that those chosen by the program are one such sequence. That the state does not become zero is a hypothesis where noise and truncation come together, because there it can (C78_noise_violation)."
  },
  {
   "property": "C79",
   "status": "proved",
   "theorems": [
    "Verif.Props.C79_same",
    "Verif.Props.C79_variational"
   ],
   "note": "The programs of C38 with dense tensors over the reals or complex numbers in exact arithmetic (undefined tensors a distinct value, the Lanczos solver of the master a machine fed with products). Assumed of the libraries (MpiLib.OK, instantiated with two sectors per leg): the sectors make up the leg, the sorting functions sort, the parallel decomposition returns the serial one's result; of LAPACK that it looks only at the entries given. Needs max_iterations >= 2, and environments found on disk must be those of the MPS. The reported number of Lanczos iterations, which is one less than in the serial program, is not kept."
  },
  {
   "property": "C80",
   "status": "proved",
   "theorems": [
    "Verif.Props.C80_entropy",
    "Verif.Props.C80_von_neumann",
    "Verif.Props.C80_empty"
   ],
   "note": "Dense tensors over the reals or complex numbers, exact arithmetic; QR and SVD are parameters with their specifications. That an SVD meeting its specification and keeping no zero exists is proved from the spectral theorem (svdR_exists). NaN is a distinct outcome of the model."
  },
  {
   "property": "C81",
   "status": "proved",
   "theorems": [
    "Verif.Props.C81_tdvp_program"
   ],
   "note": "Composition of C59, C30, C73 and C31 with their assumptions: dense complex tensors, exact arithmetic, QR, truncated SVD and LAPACK's tridiagonal solver parameters with their specifications. The file of the table is C86_tdvp_file."
  },
  {
   "property": "C82",
   "status": "proved",
   "theorems": [
    "Verif.Props.C82_tdvp_master"
   ],
   "note": "As C81, for the master; the parallel solver is taken to return what the serial one returns on the normalised vector; C83 proves this of master and workers. Normalize() of the first tensor is modelled; its division by zero is excluded by the hypothesis that O0 psi is not zero."
  },
  {
   "property": "C83",
   "status": "proved",
   "theorems": [
    "Verif.Props.C83_same",
    "Verif.Props.C83_tdvp_parallel"
   ],
   "note": "The programs of C38 with dense complex tensors in exact arithmetic; the exponential solver of the master is a machine fed with products, proved equal to the serial one. Assumed of the libraries (MpiLib.OKT, instantiated with two sectors per leg): the sectors make up the leg, the sorting functions sort, the parallel decomposition returns the serial one's result; of LAPACK that it looks only at the entries given (a solver with that property exists: local_eig_exists). The preparation, the measurements and the environments before the first sweep are the master's alone, as in the code."
  },
  {
   "property": "C84",
   "status": "proved",
   "theorems": [
    "Verif.Props.C84_same",
    "Verif.Props.C84_noises",
    "Verif.Props.C84_variational",
    "Verif.Props.C84_alive"
   ],
   "note": "The programs of C38 with dense tensors over the reals or complex numbers in exact arithmetic, expansions of the workers included. Assumed of the libraries (NoiseLib.OKN, instantiated with two sectors per leg): as in C79; which components the expansion appends is a function of the block and the two MPO tensors. The serial program of the comparison does not decompose the right MPO tensor. The load and dump threads of the master run in order here; that their interleaving does not matter is C40. That the state does not become zero is a hypothesis where noise and truncation come together (C78_noise_violation). An empty list of noises (uninitialised noise in the code) is excluded."
  },
  {
   "property": "C85",
   "status": "proved",
   "theorems": [
    "Verif.Props.C85_no_term_accepted",
    "Verif.Props.C85_string",
    "Verif.Props.C85_gap_violation",
    "Verif.Props.C85_one_site_violation",
    "Verif.Props.C85_null_insertion_violation",
    "Verif.Props.C85_insertion",
    "Verif.Props.C85_reorder"
   ],
   "note": "Debug build (assertions). Operators and coefficients are arbitrary types with decidable equality. Gen has an empty body and EvaluateMatReprQN_, which nothing calls, is not modelled."
  },
  {
   "property": "C86",
   "status": "proved",
   "theorems": [
    "Verif.Props.C86_file",
    "Verif.Props.C86_real",
    "Verif.Props.C86_complex",
    "Verif.Props.C86_dynamic",
    "Verif.Props.C86_no_sites",
    "Verif.Props.C86_one_site_file",
    "Verif.Props.C86_multi_site_file",
    "Verif.Props.C86_tdvp_file",
    "Verif.Props.C86_tdvp_parallel_file"
   ],
   "note": "The library's number printing is a parameter whose texts are assumed to be JSON numbers (Prints, instantiated with a printer of natural numbers); the digits of unsigned integers are Lean's. Failures of the file system and locales are not modelled."
  },
  {
   "property": "C87",
   "status": "proved",
   "theorems": [
    "Verif.Props.C87_distinct",
    "Verif.Props.C87_history",
    "Verif.Props.C87_powers",
    "Verif.Props.C87_small_tau_violation"
   ],
   "note": "Directories are arbitrary character lists compared as such (two spellings of one directory, links and case-insensitive file systems are outside). tau is a rational number and its printing rounds to the nearest, ties to even, as %f does; the file suffix is a parameter without a slash. A crash in the middle of a write is C54."
  },
  {
   "property": "C88",
   "status": "proved",
   "theorems": [
    "Verif.Props.C88_hubbard",
    "Verif.Props.C88_tJ",
    "Verif.Props.C88_spin"
   ],
   "note": "Composition of C74's MPOs with C76, C77, C78, C79 and C84, under their assumptions on the libraries. With noise it is a hypothesis that the noised and truncated state does not become zero (C77/C78 show that it can)."
  },
  {
   "property": "C89",
   "status": "proved",
   "theorems": [
    "Verif.Props.C89_hubbard",
    "Verif.Props.C89_tJ",
    "Verif.Props.C89_spin"
   ],
   "note": "Composition of C69-C71, C74, C81 and C83 under their assumptions. The operators sx, sy, nfsquare of the classes are left out. Fbdnc stands for minus the creation operator of a spin-down particle, as C69 shows. How far Phi(t) is from the exact evolution is not stated: C73 characterises the single steps."
  },
  {
   "property": "C90",
   "status": "proved",
   "theorems": [
    "Verif.Props.C90_hubbard",
    "Verif.Props.C90_tJ",
    "Verif.Props.C90_spin"
   ],
   "note": "Composition of C50 and C51 with the operator tensors of C69-C71, under their assumptions (exact arithmetic, no stale flags: NoStale). Values are not divided by the norm, as in the code. Sites must ascend; the tensor bdna at the left end, Fbdnc at the right end and the t-J annihilation operators at the left end stand for minus the operator. The disk versions of the measurements are C43."
  },
  {
   "property": "C91",
   "status": "proved",
   "theorems": [
    "Verif.Props.C91_dump",
    "Verif.Props.C91_dump_const",
    "Verif.Props.C91_load",
    "Verif.Props.C91_load_throws",
    "Verif.Props.C91_round_trip",
    "Verif.Props.C91_swap_out",
    "Verif.Props.C91_empty_slot",
    "Verif.Props.C91_crash",
    "Verif.Props.C91_reload",
    "Verif.Props.C91_reload_violation"
   ],
   "note": "The directory is writable (DumpTen checks nothing). A file is missing, no complete tensor, or a tensor; that the library reads back what it wrote is assumed. C91_reload_violation is a defect: Load keeps the flags of the tensors it replaces."
  },
  {
   "property": "C92",
   "status": "proved",
   "theorems": [
    "Verif.Props.C92_hubbard",
    "Verif.Props.C92_tJ",
    "Verif.Props.C92_spin",
    "Verif.Props.C92_hubbard_dmrg",
    "Verif.Props.C92_tJ_dmrg",
    "Verif.Props.C92_spin_dmrg",
    "Verif.Props.C92_hubbard_noise",
    "Verif.Props.C92_tJ_noise",
    "Verif.Props.C92_spin_noise"
   ],
   "note": "Composition of C42, C91, C74, one of C62, C79, C75, C76, C77, C78, C84, and C90 under their assumptions (exact arithmetic, decompositions and tridiagonal solver as specified, empty temporary directory). The MPS is loaded into a new object, or into the one used so far: VMPS leaves every flag of the object it is given at NONE (touch_vmps, touch_vmpsMpi, touch_ss, model in Mps/VmpsObj), TwoSiteFiniteVMPSWithNoise one at LEFT, which is true of the file (after_marked); FiniteDMRG has its own MPS object, and the flags of the one that was dumped (centre at site 0) are true of the files. With SingleSiteFiniteVMPS and TwoSiteFiniteVMPSWithNoise the noises are below the threshold or nothing is discarded, since noise and truncation together can turn the state into zero (C77_noise_violation, C78_noise_violation). After the parallel program with noise only loading into a new object is covered. That the returned energy is that of the last update is the label e0 of the file, see C62."
  },
  {
   "property": "C93",
   "status": "proved",
   "theorems": [
    "Verif.Props.C93_combined",
    "Verif.Props.C93_hamiltonian"
   ],
   "note": "Exact arithmetic, dense tensors. A bond that does not fit is noticed when combining instead of in the product. That combining empties the block operators is not modelled. The executors use the first form only."
  },
  {
   "property": "C94",
   "status": "proved",
   "theorems": [
    "Verif.Props.C94_sites",
    "Verif.Props.C94_uniform",
    "Verif.Props.C94_equality"
   ],
   "note": "InverseIndex of the tensor library is modelled as the exchange of the direction."
  },
  {
   "property": "C95",
   "status": "proved",
   "theorems": [
    "Verif.Props.C95_sequence",
    "Verif.Props.C95_hubbard",
    "Verif.Props.C95_tJ",
    "Verif.Props.C95_spin",
    "Verif.Props.C95_single_after_two",
    "Verif.Props.C95_single_recovers",
    "Verif.Props.C95_single_after_two_violation"
   ],
   "note": "Induction over the sequence; one step is one of C62, C75, C76, C77, C78, C79, C84 under its assumptions. What a program accepts: serial VMPS a centre at site 0 or 1, SingleSiteFiniteVMPS at 0, the others anything up to the second site of their sweeps (their canonicalisation moves it). So SingleSiteFiniteVMPS directly after serial TwoSiteFiniteVMPS (which leaves the centre at site 1) is excluded: C95_single_after_two bounds the false energy of its first update, C95_single_after_two_violation is a defect reached by running both programs (the first bond keeps a direction of weight zero, as when Dmin exceeds the Schmidt rank), C95_single_recovers says that otherwise only the first update is affected. The result is loaded into a new object."
  },
  {
   "property": "C96",
   "status": "proved",
   "theorems": [
    "Verif.Props.C96_kept_directory",
    "Verif.Props.C96_deleted",
    "Verif.Props.C96_as_deleted",
    "Verif.Props.C96_energies",
    "Verif.Props.C96_single_after_two_violation",
    "Verif.Props.C96_stale_file",
    "Verif.Props.C96_stale_violation",
    "Verif.Props.C96_hamiltonian_violation",
    "Verif.Props.C96_range_violation"
   ],
   "note": "The full statement is false of the code; proved under the condition MayKeep (KeptSpec), and with the directory deleted each time without condition. Each part of the condition is shown to be needed by a violation theorem. C96_energies asks for environments that are equal as functions: true between two-site and single-site calls and between noisy calls; the growth of the right environment in the model of the noisy program differs from theirs on tensors whose bonds do not fit, so a noisy call that finds the directory of another program is covered by C96_kept_directory only if its environments are given by the same functions. Serial programs; several runs of the parallel two-site program are C53."
  }
 ]
}