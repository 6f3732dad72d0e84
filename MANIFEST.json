{
 "claims": [
  {
   "property": "C01",
   "status": "partial",
   "theorems": [
    "Verif.Mem.C01_no_undefined_behaviour",
    "Verif.Mem.C01_only_deleted_shape_is_undefined",
    "Verif.Mem.C01_copy_of_deleted_is_undefined",
    "Verif.Mem.C01_counts_exact",
    "Verif.Mem.C01_no_leak",
    "Verif.Mem.C01_all_destroyed_heap_empty"
   ],
   "note": "Proved for every history; the one exception (copying or reshaping an object after Delete()) is exhibited as undefined behaviour. Product elements are covered separately (C09)."
  },
  {
   "property": "C02",
   "status": "partial",
   "theorems": [
    "Verif.Mem.C02_value_semantics_partial",
    "Verif.Mem.C02_reads_specified_entries_partial",
    "Verif.Mem.C04_in_place_methods_leak"
   ],
   "note": "Refinement to deep-copy values for every history without HaddRankone/Conj; false with them (witness)."
  },
  {
   "property": "C03",
   "status": "partial",
   "theorems": [
    "Verif.Mem.C03_shape_not_transferred",
    "Verif.Mem.C03_shape_transferred_partial"
   ],
   "note": "False in general (witness), proved when the objects do not already share a buffer."
  },
  {
   "property": "C04",
   "status": "partial",
   "theorems": [
    "Verif.Mem.C04_only_receiver_changes_partial",
    "Verif.Mem.C04_in_place_methods_leak",
    "Verif.Mem.C04_rank_one_update_modifies_const_argument",
    "Verif.Mem.C04_rank_one_update_private_result"
   ],
   "note": "False for the in-place methods (witnesses), proved for all others."
  },
  {
   "property": "C05",
   "status": "partial",
   "theorems": [
    "Verif.Mem.C05_submatrix_assignment_loses_entries",
    "Verif.Mem.C05_submatrix_assignment_partial"
   ],
   "note": "False for shared receivers (witness), proved for unshared ones."
  },
  {
   "property": "C06",
   "status": "partial",
   "theorems": [
    "Verif.Fields.C06_fields_fresh_partial",
    "Verif.Fields.C06_write_removes_fields",
    "Verif.Fields.C06_in_place_writers_leave_stale_fields",
    "Verif.Fields.C06_component_write_leaves_stale_fields",
    "Verif.Fields.C06_assignment_leaves_stale_component_fields"
   ],
   "note": "Proved for all histories of mutators built on the write accessors; false for Conj, HaddRankone, ScaledIdOPE, for writes through components and for assignment over component fields (proved)."
  },
  {
   "property": "C07",
   "status": "partial",
   "theorems": [
    "Verif.Fields.C07_assignment_exact_partial",
    "Verif.Fields.C07_copy_fields_union",
    "Verif.Fields.C07_component_fields_survive"
   ],
   "note": "Exact for all nested field maps; fields of components of the target survive (proved)."
  },
  {
   "property": "C08",
   "status": "partial",
   "theorems": [
    "Verif.Mem.C08_compound_assignment_leaves_left"
   ],
   "note": "The property is false: proved that the left operand is never changed."
  },
  {
   "property": "C09",
   "status": "proved",
   "theorems": [
    "Verif.Product.C09_slices_consecutive",
    "Verif.Product.C09_slices_partition",
    "Verif.Product.C09_nested_read_in_order",
    "Verif.Product.C09_component_write_local"
   ],
   "note": "All numbers of types, powers, lengths and nesting depths."
  },
  {
   "property": "C10",
   "status": "proved",
   "theorems": [
    "Verif.Elem.C10_transpose_entries",
    "Verif.Elem.C10_transpose_in_bounds",
    "Verif.Elem.C10_transpose_involution",
    "Verif.Elem.C10_conj_transpose_entries",
    "Verif.Elem.C10_conj_transpose_in_bounds",
    "Verif.Elem.C10_conj_transpose_involution"
   ],
   "note": "Two-dimensional arrays (num == 1); GetTranspose drops the other slices of a three-dimensional array."
  },
  {
   "property": "C11",
   "status": "proved",
   "theorems": [
    "Verif.Elem.C11_submatrix_entries",
    "Verif.Elem.C11_submatrix_in_bounds",
    "Verif.Elem.C11_assign_then_read",
    "Verif.Elem.C11_assign_outside",
    "Verif.Elem.C11_read_then_assign",
    "Verif.Elem.C11_submatrixC_entries",
    "Verif.Elem.C11_assignC_then_read"
   ],
   "note": ""
  },
  {
   "property": "C12",
   "status": "proved",
   "theorems": [
    "Verif.Elem.C12_inverse_after_forward",
    "Verif.Elem.C12_forward_after_inverse",
    "Verif.Elem.C12_norm_preserved"
   ],
   "note": "All dimensions, over any field with a square root of 2."
  },
  {
   "property": "C13",
   "status": "partial",
   "theorems": [
    "Verif.Solver.C13_run_within_limits",
    "Verif.Solver.C13_run_ends_for_a_reason",
    "Verif.Solver.C13_min_above_max_overruns",
    "Verif.Solver.C13_zero_output_gap_divides_by_zero",
    "Verif.TRRun.C13_tr_run_finishes"
   ],
   "note": "Proved for every environment when Min_Iteration <= Max_Iteration and OutputGap is nonzero; each missing precondition leads to undefined behaviour (witnesses)."
  },
  {
   "property": "C14",
   "status": "proved",
   "theorems": [
    "Verif.Solver.C14_armijo_sufficient_decrease",
    "Verif.Solver.C14_armijo_no_increase"
   ],
   "note": "All one-dimensional restrictions, interpolation outcomes and parameters."
  },
  {
   "property": "C15",
   "status": "partial",
   "theorems": [
    "Verif.Solver.C15_armijo_terminates_within",
    "Verif.Solver.C15_armijo_terminates",
    "Verif.Solver.C15_armijo_step_bounds_partial",
    "Verif.Solver.C15_armijo_finds_step",
    "Verif.Solver.C15_success_below_minimum_step"
   ],
   "note": "Termination with an explicit bound; the lower bound on accepted steps is false as stated (witness) and proved with the slack the code leaves."
  },
  {
   "property": "C16",
   "status": "partial",
   "theorems": [
    "Verif.Solver.C16_window_decrease",
    "Verif.Solver.C16_monotone",
    "Verif.Solver.C16_monotone_before_switch",
    "Verif.Solver.C16_bounded_by_initial",
    "Verif.Solver.C16_failed_search_accepts_rejected_trial"
   ],
   "note": "Proved for runs whose searches succeed; the last iterate of a failed search is not covered (witness)."
  },
  {
   "property": "C17",
   "status": "partial",
   "theorems": [
    "Verif.Solver.C17_strong_wolfe_success",
    "Verif.Solver.C17_strong_wolfe_max_step",
    "Verif.Solver.C17_strong_wolfe_terminates",
    "Verif.Solver.C17_weak_wolfe_success_partial",
    "Verif.Solver.C17_weak_wolfe_initial_partial",
    "Verif.Solver.C17_weak_wolfe_terminates",
    "Verif.Solver.C17_weak_wolfe_success_without_decrease",
    "Verif.Solver.C17_weak_wolfe_success_without_curvature"
   ],
   "note": "Strong Wolfe proved; weak Wolfe false (two witnesses) with the part that holds."
  },
  {
   "property": "C18",
   "status": "partial",
   "theorems": [
    "Verif.Dir.C18_rsd_descent",
    "Verif.Dir.C18_rcg_descent_partial",
    "Verif.Dir.C18_rcg_first_direction",
    "Verif.Dir.C18_rcg_nan_not_caught",
    "Verif.Dir.C18_rcg_nan_occurs",
    "Verif.QN.C18_rbfgs_descent",
    "Verif.QN.C25_lrbfgs_run_descent"
   ],
   "note": "Proved for RSD, for RCG with numeric candidates, for every RBFGS and LRBFGS run with nu > 0. A NaN candidate of RCG is not caught (proved that it occurs)."
  },
  {
   "property": "C19",
   "status": "partial",
   "theorems": [
    "Verif.TRRun.C19_radius_bounds_partial",
    "Verif.TRRun.C19_initial_radius_not_clamped",
    "Verif.TRRun.C19_rejections_bounded",
    "Verif.TRRun.C19_radius_rule",
    "Verif.TRRun.C19_nan_ratio_keeps_radius"
   ],
   "note": "Proved when the initial radius is within the bounds; false otherwise (proved). Consecutive rejections are bounded."
  },
  {
   "property": "C20",
   "status": "partial",
   "theorems": [
    "Verif.TRRun.C20_iterates_decrease_partial",
    "Verif.TR.C20_rtr_iterates_decrease_partial",
    "Verif.TRRun.C20_rejection_keeps_iterate",
    "Verif.TRRun.C20_result_partial",
    "Verif.TRRun.C20_history_records_rejected_values",
    "Verif.TRRun.C20_accuracy_branch_accepts_increase"
   ],
   "note": "Whole-solver theorem for the Newton trust-region solver; false in the accuracy branch (witness)."
  },
  {
   "property": "C21",
   "status": "proved",
   "theorems": [
    "Verif.TR.C21_tcg_step",
    "Verif.TR.C21_tcg_norm_le_radius",
    "Verif.TR.C21_converged_residual",
    "Verif.TR.C21_tcg_no_breakdown",
    "Verif.TR.C21_min_inner_iter_breaks_down",
    "Verif.TR.C21_zero_gradient_breaks_down"
   ],
   "note": "Any symmetric operator, SPD preconditioner, radius and cap; includes Cauchy decrease and meaning of the statuses. With Min_Inner_Iter >= 1 the loop can break down (proved). The random initial guess (useRand) is not modelled."
  },
  {
   "property": "C22",
   "status": "partial",
   "theorems": [
    "Verif.TR.C22_newton_direction_descent",
    "Verif.TR.C22_first_newton_step_discarded"
   ],
   "note": "Descent proved for all symmetric Hessians. The second half (first step kept) is false: a step that converges in the first pass is replaced by the steepest-descent direction (proved)."
  },
  {
   "property": "C23",
   "status": "partial",
   "theorems": [
    "Verif.QN.C23_bfgs_formula",
    "Verif.QN.C23_bfgs_update_spd",
    "Verif.QN.C23_bfgs_secant",
    "Verif.QN.C23_broyden_update_spd",
    "Verif.QN.C23_broyden_secant",
    "Verif.QN.C23_broyden_default_is_bfgs",
    "Verif.QN.C23_rbfgs_call",
    "Verif.QN.C23_rwrbfgs_call",
    "Verif.QN.C23_rbroyden_call",
    "Verif.QN.C23_rbfgs_run",
    "Verif.QN.C23_zero_nu_divides_by_zero"
   ],
   "note": "Proved for nu > 0 and isometric transports, all dimensions and histories; with nu = 0 the update can divide by zero (witness)."
  },
  {
   "property": "C24",
   "status": "proved",
   "theorems": [
    "Verif.QN.C24_buffer_holds_recent_pairs",
    "Verif.QN.C24_buffer_restart"
   ],
   "note": "All capacities and histories of a fresh solver."
  },
  {
   "property": "C25",
   "status": "proved",
   "theorems": [
    "Verif.QN.C25_two_loop_is_bfgs",
    "Verif.QN.C25_two_loop_after_run",
    "Verif.QN.C25_two_loop_descent",
    "Verif.QN.C25_lrbfgs_run_descent"
   ],
   "note": ""
  },
  {
   "property": "C26",
   "status": "partial",
   "theorems": [
    "Verif.QN.C26_second_run_reads_empty_slots",
    "Verif.Obj.C118_run_independent",
    "Verif.Obj.C118_bb_history_leaks",
    "Verif.Obj.C118_user_stop_gets_old_iterate",
    "Verif.Obj.C118_rbfgs_keeps_operator",
    "Verif.Obj.C119_run_independent",
    "Verif.Obj.C119_sr1_keeps_operator"
   ],
   "note": "The property is false: the second run of LRBFGS reads empty slots, former Barzilai-Borwein steps and the operators of RBFGS and RTRSR1 are kept, and a user's stopping function first gets the previous iterate (all proved). It is true for the other cases of the modelled solvers (C118, C119)."
  },
  {
   "property": "C27",
   "status": "partial",
   "theorems": [
    "Verif.QN.C27_sr1_symmetric",
    "Verif.QN.C27_sr1_secant_partial",
    "Verif.QN.C27_sr1_secant_fails_at_reset",
    "Verif.QN.C27_sr1_divides_by_zero"
   ],
   "note": "Symmetry always; secant equation except in the pass with iter == 1 (witness); division by zero near convergence (proved)."
  },
  {
   "property": "C28",
   "status": "partial",
   "theorems": [
    "Verif.Solver.C28_time_limit",
    "Verif.Solver.C28_callback_decides",
    "Verif.Solver.C28_gradient_norm",
    "Verif.Solver.C28_relative_decrease_needs_iteration",
    "Verif.Solver.C28_relative_gradient_partial",
    "Verif.Solver.C28_critical_start_never_stops",
    "Verif.Solver.C28_relative_decrease_partial",
    "Verif.Solver.C28_relative_decrease_differs"
   ],
   "note": "Two criteria differ from the documentation (proved)."
  },
  {
   "property": "C29",
   "status": "partial",
   "theorems": [
    "Verif.Solver.C29_set_params",
    "Verif.Solver.C29_real_parameters_exact",
    "Verif.Solver.C29_trust_region_parameters_exact",
    "Verif.Solver.C29_integer_parameters_exact",
    "Verif.Solver.C29_proximal_parameters_truncated"
   ],
   "note": "False for the proximal-gradient solvers (proved for all values in [0,1)); proved for the others."
  },
  {
   "property": "C30",
   "status": "partial",
   "theorems": [
    "Verif.PG.C30_run_finishes",
    "Verif.PG.C30_floors_exist",
    "Verif.PG.C30_min_above_max_overruns",
    "Verif.PG.C30_iterates_decrease_partial",
    "Verif.PG.C30_accelerated_livelock"
   ],
   "note": "Proved for ManPG; the accelerated solver can loop for ever in single precision (proved)."
  },
  {
   "property": "C31",
   "status": "partial",
   "theorems": [
    "Verif.PG.C31_safeguard_decreases_partial",
    "Verif.PG.C31_short_runs_return_start"
   ],
   "note": "Decrease between safeguard checks proved where the safeguard compares; short runs return the start (proved)."
  },
  {
   "property": "C32",
   "status": "partial",
   "theorems": [
    "Verif.Sub.C32_terminates_partial",
    "Verif.Sub.C32_livelock",
    "Verif.Sub.C32_livelock_equal_del",
    "Verif.Sub.C32_livelock_min_iteration",
    "Verif.Sub.C32_first_direction_uninitialised",
    "Verif.Sub.C32_stale_direction_norm"
   ],
   "note": "False in general: three livelocks and an uninitialised read (proved). Termination with an explicit bound otherwise."
  },
  {
   "property": "C33",
   "status": "partial",
   "theorems": [
    "Verif.Sphere.C33_retraction_unit_partial",
    "Verif.Sphere.C33_retraction_result_unit",
    "Verif.Sphere.C33_projection",
    "Verif.Sphere.C33_guarded_retraction_unit",
    "Verif.Sphere.C33_zero_tangent_gives_nan",
    "Verif.Sphere.C77_sphere_partial"
   ],
   "note": "Everything except the zero tangent vector, for which the exponential retraction of Sphere gives NaN (proved); SphereTx guards it (proved)."
  },
  {
   "property": "C34",
   "status": "proved",
   "theorems": [
    "Verif.Sphere.C34_transport_tangent",
    "Verif.Sphere.C34_transport_isometry",
    "Verif.Sphere.C34_inverse_transport",
    "Verif.Sphere.C34_operator_transport",
    "Verif.Sphere.C34_transport_locks"
   ],
   "note": "Any real inner product space."
  },
  {
   "property": "C35",
   "status": "proved",
   "theorems": [
    "Verif.Stiefel.C35_stiefel_projection",
    "Verif.Stiefel.C35_grassmann_projection",
    "Verif.SPD.C35_spd_projection"
   ],
   "note": ""
  },
  {
   "property": "C36",
   "status": "proved",
   "theorems": [
    "Verif.Stiefel.C36_qf_retraction",
    "Verif.Stiefel.C36_qf_zero",
    "Verif.Stiefel.C36_polar_retraction",
    "Verif.Stiefel.C36_polar_unique",
    "Verif.Stiefel.C36_cayley_system_solvable",
    "Verif.Stiefel.C36_cayley_retraction"
   ],
   "note": "Factorisations (QR, SVD, LU) by their specification."
  },
  {
   "property": "C37",
   "status": "proved",
   "theorems": [
    "Verif.Intr.C37_stiefel_dim",
    "Verif.Intr.C37_grassmann_dim",
    "Verif.Intr.C37_spd_dim",
    "Verif.Intr.C37_normal_dim",
    "Verif.Intr.C37_stiefel_extr_intr",
    "Verif.Intr.C37_stiefel_intr_extr",
    "Verif.Intr.C37_stiefel_isometry",
    "Verif.Intr.C37_grassmann_extr_intr",
    "Verif.Intr.C37_grassmann_intr_extr",
    "Verif.Intr.C37_grassmann_isometry",
    "Verif.Intr.C37_normal",
    "Verif.Intr.C37_spd_euc",
    "Verif.Intr.C37_spd_af",
    "Verif.Q2F.C37_two_factor_dim",
    "Verif.Q2F.C37_two_factor_chol",
    "Verif.Q2F.C37_two_factor_isometry",
    "Verif.Q2F.C37_two_factor_intr_extr",
    "Verif.Q2F.C37_two_factor_extr_intr",
    "Verif.SymFR.C37_sym_dim",
    "Verif.SymFR.C37_sym_isometry_euc",
    "Verif.SymFR.C37_sym_isometry_hgz",
    "Verif.SymFR.C37_sym_intr_extr",
    "Verif.SymFR.C37_sym_extr_intr",
    "Verif.SymFR.C37_sym_qeuc_dim",
    "Verif.SymFR.C37_sym_qeuc_isometry",
    "Verif.SymFR.C37_sym_qeuc_extr_intr",
    "Verif.SymFR.C37_sym_qeuc_intr_extr",
    "Verif.CFixed.C37_herm_dim",
    "Verif.CFixed.C37_herm_isometry_euc",
    "Verif.CFixed.C37_herm_isometry_hgz",
    "Verif.CFixed.C37_herm_intr_extr",
    "Verif.CFixed.C37_herm_extr_intr",
    "Verif.CFixed.C37_ctwo_factor_dim",
    "Verif.CFixed.C37_ctwo_factor_chol",
    "Verif.CFixed.C37_ctwo_factor_isometry",
    "Verif.CFixed.C37_ctwo_factor_intr_extr",
    "Verif.CFixed.C37_ctwo_factor_extr_intr"
   ],
   "note": "QR and Cholesky factors by their specification; the buffer loops are modelled write by write."
  },
  {
   "property": "C38",
   "status": "proved",
   "theorems": [
    "Verif.SPD.C38_second_order",
    "Verif.SPD.C38_second_order_intrinsic",
    "Verif.SPD.C38_exponential"
   ],
   "note": "Cholesky and eigendecomposition by their specification; also proved for the exponential retraction."
  },
  {
   "property": "C39",
   "status": "partial",
   "theorems": [
    "Verif.SPD.C39_self_distance",
    "Verif.SPD.C39_not_symmetric",
    "Verif.SPD.C39_congruence_invariant_partial",
    "Verif.SPD.C39_euclidean"
   ],
   "note": "False in the code (the logarithm is missing): Dist(x,x) = sqrt(n) and not symmetric (proved). What remains (congruence invariance; the Euclidean distance is a metric) is proved."
  },
  {
   "property": "C40",
   "status": "partial",
   "theorems": [
    "Verif.SPD.C40_returns_zero",
    "Verif.SPD.C40_not_isometric",
    "Verif.SPD.C40_comment_formula_partial"
   ],
   "note": "False in the code: the result is always zero (proved). The factor computed by the code would give an isometry (proved)."
  },
  {
   "property": "C41",
   "status": "proved",
   "theorems": [
    "Verif.Sphere.C41_norm_preserved",
    "Verif.Sphere.C41_locking",
    "Verif.Sphere.C41_isometry",
    "Verif.Sphere.C41_inverse",
    "Verif.Sphere.C41_operator_transport",
    "Verif.Sphere.C41_zero_vector_gives_nan",
    "Verif.Sphere.C41_opposite_directions_give_nan"
   ],
   "note": "Any real inner product space; the two cases in which a reflector or scaling divides by zero are proved to give NaN."
  },
  {
   "property": "C42",
   "status": "partial",
   "theorems": [
    "Verif.Sphere.C42_helpers_partial",
    "Verif.Sphere.C42_scalar_times_vector",
    "Verif.Sphere.C42_first_operand_aliased"
   ],
   "note": "True unless the result object is the first vector operand, in which case the wrong combination is returned (proved)."
  },
  {
   "property": "C43",
   "status": "partial",
   "theorems": [
    "Verif.Multi.C43_constructors",
    "Verif.Multi.C43_dims",
    "Verif.Multi.C43_metric",
    "Verif.Multi.C43_dist",
    "Verif.Multi.C43_operations",
    "Verif.Multi.C43_retraction",
    "Verif.Multi.C43_retraction_flags_partial",
    "Verif.Multi.C43_metric_inner",
    "Verif.Multi.C43_transport",
    "Verif.Multi.C43_tranHInvTran_partial",
    "Verif.Multi.C43_tranHInvTran_ignores",
    "Verif.Multi.C43_extrinsic_projection_fails",
    "Verif.Multi.C43_retraction_changes_component"
   ],
   "note": "Componentwise for every operation, any number of components. False in three places (proved): an extrinsic product does not project intrinsic components, its retraction switches components to intrinsic, TranHInvTran with a separate result ignores its operand (the solvers never call it so)."
  },
  {
   "property": "C44",
   "status": "partial",
   "theorems": [
    "Verif.FixedRank.C44_rank_partial",
    "Verif.FixedRank.C44_rank_drops",
    "Verif.Q2F.C44_two_factor_rank_partial",
    "Verif.Q2F.C44_two_factor_rank_drops",
    "Verif.SymFR.C44_sym_rank_drops",
    "Verif.SymFR.C44_sym_rank_partial"
   ],
   "note": "False: at every point a tangent vector is retracted to the zero matrix (proved for all three geometries). Proved: the rank of the result is the rank of the new core."
  },
  {
   "property": "C45",
   "status": "proved",
   "theorems": [
    "Verif.FixedRank.C45_metric",
    "Verif.FixedRank.C45_linear",
    "Verif.FixedRank.C45_projection",
    "Verif.FixedRank.C45_tangent_space"
   ],
   "note": ""
  },
  {
   "property": "C46",
   "status": "partial",
   "theorems": [
    "Verif.Stiefel.C46_cayley_transport",
    "Verif.SPD.C46_spd_parallelisation",
    "Verif.SPD.C46_spd_paratran_not_inverted",
    "Verif.Q2F.C46_two_factor_transport",
    "Verif.Q2F.C46_two_factor_inverse_partial",
    "Verif.Q2F.C46_two_factor_inverse_fails",
    "Verif.SymFR.C46_sym_transport_euc",
    "Verif.SymFR.C46_sym_transport_hgz",
    "Verif.SymFR.C46_sym_transport_qeuc",
    "Verif.CFixed.C46_herm_transport_euc",
    "Verif.CFixed.C46_herm_transport_hgz",
    "Verif.CFixed.C46_ctwo_factor_transport",
    "Verif.CFixed.C46_ctwo_factor_inverse_partial",
    "Verif.CFixed.C46_ctwo_factor_inverse_fails"
   ],
   "note": "Stiefel Cayley transport, SPD parallelisation; false for SPD parallel translation and for the extrinsic two-factor fixed-rank transport (both proved)."
  },
  {
   "property": "C47",
   "status": "partial",
   "theorems": [
    "Verif.Spline.C47_piece",
    "Verif.Spline.C47_piece_deriv",
    "Verif.Spline.C47_slopes",
    "Verif.Spline.C47_uniform_slopes",
    "Verif.Spline.C47_slopes_succeeds",
    "Verif.Spline.C47_uniform_slopes_succeeds",
    "Verif.Spline.C47_periodic_partial",
    "Verif.Spline.C47_uniform_periodic_partial",
    "Verif.Spline.C47_periodic_fails",
    "Verif.Spline.C47_interval",
    "Verif.Spline.C47_eval_inside",
    "Verif.Spline.C47_eval_breaks_partial",
    "Verif.Spline.C47_uniform_interval_total",
    "Verif.Spline.C47_uniform_interval",
    "Verif.Spline.C47_uniform_eval_breaks",
    "Verif.Spline.C47_uniform_eval_inside",
    "Verif.Spline.C47_eval_shifted_fails"
   ],
   "note": "Proved for the routines with end slopes and for the uniform evaluation. False in the code for the periodic routines (overlapping work arrays, C47_periodic_fails; correct with separate arrays) and for the non-uniform evaluation when the first break is not 0 (C47_eval_shifted_fails)."
  },
  {
   "property": "C48",
   "status": "partial",
   "theorems": [
    "Verif.Spline.C48_tridiagonal",
    "Verif.Spline.C48_slopes_slices",
    "Verif.Spline.C48_periodic_partial",
    "Verif.Spline.C48_periodic_slices_overlap",
    "Verif.Spline.C48_periodic_nan"
   ],
   "note": "Open system proved. Periodic system: proved for non-overlapping arrays and outcomes without NaN; the callers pass overlapping arrays and a zero pivot is reported as success."
  },
  {
   "property": "C49",
   "status": "proved",
   "theorems": [
    "Verif.Sparse.C49_handles",
    "Verif.Sparse.C49_table_grows",
    "Verif.Sparse.C49_copy_undefined",
    "Verif.Sparse.C49_insert_any"
   ],
   "note": "For objects that are not copied; the copy of a SparseMatrix shares the handle and its destruction is undefined (proved). Slots are never reused (proved)."
  },
  {
   "property": "C50",
   "status": "proved",
   "theorems": [
    "Verif.Sparse.C50_sparse_times",
    "Verif.Sparse.C50_times_sparse",
    "Verif.Sparse.C50_dimension_mismatch",
    "Verif.Sparse.C50_in_range",
    "Verif.Sparse.C50_hermitian_insert_undefined",
    "Verif.Sparse.C50_symmetric",
    "Verif.Sparse.C50_triangular"
   ],
   "note": "General matrices, the only kind Element products build; exact arithmetic; element type any commutative star ring (real, complex)."
  },
  {
   "property": "C51",
   "status": "proved",
   "theorems": [
    "Verif.Problem.C51_in_hull",
    "Verif.Problem.C51_minimal",
    "Verif.Problem.C51_iterates"
   ],
   "note": "QR factor by its specification (orthonormal columns)."
  },
  {
   "property": "C52",
   "status": "proved",
   "theorems": [
    "Verif.Problem.C52_brockett",
    "Verif.Problem.C52_quadratic",
    "Verif.Problem.C52_rayleigh",
    "Verif.Problem.C52_quadratic_needs_symmetric",
    "Verif.Problem.C52_spca",
    "Verif.Problem.C52_lyapunov",
    "Verif.Problem.C52_prod_brockett",
    "Verif.Problem.C52_weighted",
    "Verif.Problem.C52_sparse_approx",
    "Verif.Problem.C52_completion",
    "Verif.Problem.C52_convex_hull",
    "Verif.Problem.C52_tangent_rayleigh",
    "Verif.Problem.C52_sparsest_subgradient",
    "Verif.Problem.C52_sparsest_hessian_wrong",
    "Verif.Problem.C52_complex_brockett",
    "Verif.Problem.C52_phase_retrieval",
    "Verif.Problem.C52_on_stiefel"
   ],
   "note": "Symmetric data where the formulas need it (needed: proved). The l1 problem SphereSparsestVector has a correct subgradient and a wrong Hessian (proved). SPDKarcherMean and blind deconvolution not modelled."
  },
  {
   "property": "C53",
   "status": "proved",
   "theorems": [
    "Verif.Prox.C53_prox",
    "Verif.Prox.C53_prox_unique",
    "Verif.Prox.C53_firm",
    "Verif.Prox.C53_lipschitz",
    "Verif.Prox.C53_jacobian",
    "Verif.Prox.C53_vector"
   ],
   "note": "Over any ordered field; the array loop is modelled block by block (number of weights dividing the length)."
  },
  {
   "property": "C54",
   "status": "partial",
   "theorems": [
    "Verif.PG.C54_success",
    "Verif.PG.C54_failure",
    "Verif.PG.C54_terminates_within",
    "Verif.PG.C54_terminates",
    "Verif.PG.C54_no_increase_partial",
    "Verif.PG.C54_success_with_increase"
   ],
   "note": "Success, failure and termination proved; the accuracy slack lets the objective increase by a small amount (witness)."
  },
  {
   "property": "C55",
   "status": "proved",
   "theorems": [
    "Verif.Dir.C55_restart",
    "Verif.Dir.C55_no_restart",
    "Verif.Dir.C55_fletcher_reeves",
    "Verif.Dir.C55_polak_ribiere_nonneg",
    "Verif.Dir.C55_frpr_between",
    "Verif.Dir.C55_dai_yuan_descent"
   ],
   "note": ""
  },
  {
   "property": "C56",
   "status": "partial",
   "theorems": [
    "Verif.Solver.C56_strong_wolfe_failure_is_inconsistent",
    "Verif.Solver.C17_strong_wolfe_success",
    "Verif.Solver.C14_armijo_sufficient_decrease",
    "Verif.Solver.C17_weak_wolfe_success_without_decrease"
   ],
   "note": "The Armijo and strong Wolfe success theorems include that point, value and slope belong to the accepted step; false for weak Wolfe and for failures."
  },
  {
   "property": "C57",
   "status": "partial",
   "theorems": [
    "Verif.Solver.C57_initial_step_positive",
    "Verif.Solver.C57_not_far_below_prediction",
    "Verif.Solver.C57_initial_step_not_minus_infinity",
    "Verif.Solver.C57_nan_passes_safeguard"
   ],
   "note": "Proved for finite results; a NaN candidate passes the safeguard (proved)."
  },
  {
   "property": "C58",
   "status": "partial",
   "theorems": [
    "Verif.Solver.C58_callback_length_is_stale"
   ],
   "note": "The property is false: proved that the callback always gets the stale length."
  },
  {
   "property": "C59",
   "status": "partial",
   "theorems": [
    "Verif.Solver.C59_ls_stop_request_honoured",
    "Verif.TRRun.C59_tr_stop_test_ignored_on_rejection",
    "Verif.TRRun.C59_tr_stops_after_accept_partial"
   ],
   "note": "True for line-search runs, false for trust-region runs while candidates are rejected."
  },
  {
   "property": "C60",
   "status": "proved",
   "theorems": [
    "Verif.Sub.C60_success",
    "Verif.Sub.C60_max_step_not_evaluated",
    "Verif.Sub.C60_failed_search_increases",
    "Verif.Sub.C60_zoom_livelock",
    "Verif.Sub.C60_search_livelock"
   ],
   "note": ""
  },
  {
   "property": "C61",
   "status": "proved",
   "theorems": [
    "Verif.Product.C61_products_are_values",
    "Verif.Product.C61_detach_then_write_component",
    "Verif.Product.C61_component_write_reaches_copies"
   ],
   "note": ""
  },
  {
   "property": "C62",
   "status": "partial",
   "theorems": [
    "Verif.Sphere.C62_sphere_diff_retraction",
    "Verif.Stiefel.C62_qf_diff_retraction",
    "Verif.Stiefel.C62_polar_diff_retraction",
    "Verif.Stiefel.C62_cayley_diff_retraction",
    "Verif.SPD.C62_spd_second_order",
    "Verif.SPD.C62_spd_tangent",
    "Verif.FixedRank.C62_fixed_rank_partial",
    "Verif.FixedRank.C62_fixed_rank_nan",
    "Verif.Q2F.C62_two_factor_diff",
    "Verif.SymFR.C62_sym_diff",
    "Verif.SymFR.C62_sym_diff_qeuc",
    "Verif.SymFR.C62_sym_intrinsic_fails"
   ],
   "note": "Sphere exponential map (any direction), Stiefel qf (any direction), polar and Cayley (same-direction case, the only one implemented), SPD second-order, two-factor fixed rank (any direction), embedded fixed rank (same direction, both outer components nonzero; NaN otherwise, proved), symmetric fixed rank with extrinsic vectors (any direction). With intrinsic vectors the symmetric fixed-rank code differentiates a different retraction (proved)."
  },
  {
   "property": "C63",
   "status": "partial",
   "theorems": [
    "Verif.Sphere.C63_sphere_cotangent_adjoint",
    "Verif.Stiefel.C63_qf_cotangent_adjoint",
    "Verif.Stiefel.C63_grassmann_cotangent_adjoint"
   ],
   "note": "Sphere exponential map, Stiefel qf, Grassmann. Polar and Cayley cotangent vectors are not implemented by the code."
  },
  {
   "property": "C64",
   "status": "partial",
   "theorems": [
    "Verif.Sphere.C64_sphere_hessian_symmetric",
    "Verif.Stiefel.C64_stiefel_hessian_symmetric",
    "Verif.Stiefel.C64_grassmann_hessian_symmetric",
    "Verif.Stiefel.C64_canonical_comment_tangent",
    "Verif.Stiefel.C64_canonical_hessian_not_tangent",
    "Verif.SPD.C64_spd_hessian_symmetric",
    "Verif.FixedRank.C64_fixed_rank_hessian",
    "Verif.FixedRank.C64_fixed_rank_symmetric",
    "Verif.Q2F.C64_two_factor_hessian",
    "Verif.Q2F.C64_two_factor_symmetric",
    "Verif.SymFR.C64_sym_hessian_euc",
    "Verif.SymFR.C64_sym_symmetric_euc",
    "Verif.SymFR.C64_sym_hessian_hgz",
    "Verif.SymFR.C64_sym_hessian_qeuc"
   ],
   "note": "All fixed-rank geometries (symmetric ones with the three metrics), SPD, Sphere, Stiefel (Euclidean metric), Grassmann proved. For the canonical metric the code returns a non-tangent vector (proved)."
  },
  {
   "property": "C65",
   "status": "partial",
   "theorems": [
    "Verif.SphereBlock.C65_left_block",
    "Verif.SphereBlock.C65_right_whole_partial",
    "Verif.SphereBlock.C65_right_block_out_of_bounds",
    "Verif.SphereBlock.C65_right_block_writes_outside"
   ],
   "note": "Left factor proved; right factor of the sphere is out of bounds for every proper factor (proved)."
  },
  {
   "property": "C66",
   "status": "partial",
   "theorems": [
    "Verif.Stiefel.C66_stiefel_gradient",
    "Verif.Stiefel.C66_canonical_gradient",
    "Verif.Stiefel.C66_grassmann_gradient",
    "Verif.SPD.C66_spd_gradient_partial",
    "Verif.SPD.C66_spd_nonsymmetric_gradient_lost",
    "Verif.FixedRank.C66_fixed_rank_gradient",
    "Verif.Q2F.C66_two_factor_gradient",
    "Verif.Q2F.C66_two_factor_rep",
    "Verif.SymFR.C66_sym_gradient_euc",
    "Verif.SymFR.C66_sym_rep",
    "Verif.SymFR.C66_sym_gradient_hgz",
    "Verif.SymFR.C66_sym_gradient_qeuc"
   ],
   "note": "Stiefel (both metrics), Grassmann, both fixed-rank geometries for every Euclidean gradient, symmetric fixed rank for gradients of functions of the represented matrix; SPD only when the Euclidean gradient is symmetric (failure proved otherwise)."
  },
  {
   "property": "C68",
   "status": "proved",
   "theorems": [
    "Verif.Stiefel.C68_inv_polar",
    "Verif.Stiefel.C68_polar_of_inv",
    "Verif.Stiefel.C68_sylvester_solution"
   ],
   "note": "Schur form and tgsyl by their specification."
  },
  {
   "property": "C69",
   "status": "proved",
   "theorems": [
    "Verif.Spline.C47_piece",
    "Verif.Spline.C47_slopes",
    "Verif.Spline.C47_uniform_slopes",
    "Verif.Spline.C47_slopes_succeeds",
    "Verif.Spline.C47_uniform_slopes_succeeds",
    "Verif.Spline.C47_piece_deriv"
   ],
   "note": ""
  },
  {
   "property": "C70",
   "status": "proved",
   "theorems": [
    "Verif.Spline.C47_uniform_interval_total",
    "Verif.Spline.C47_uniform_interval",
    "Verif.Spline.C47_uniform_eval_breaks",
    "Verif.Spline.C47_uniform_eval_inside"
   ],
   "note": "Exact arithmetic; the step must exceed the tolerance."
  },
  {
   "property": "C71",
   "status": "proved",
   "theorems": [
    "Verif.Spline.C48_tridiagonal",
    "Verif.Spline.C48_slopes_slices"
   ],
   "note": ""
  },
  {
   "property": "C72",
   "status": "partial",
   "theorems": [
    "Verif.Prox.C72_zero_residual_is_minimiser",
    "Verif.Prox.C72_normal_adjoint",
    "Verif.Prox.C72_normal_kernel",
    "Verif.Prox.C72_stiefel",
    "Verif.Prox.C72_newton_exit",
    "Verif.Prox.C72_newton_decrease",
    "Verif.Prox.C72_newton_early_inconsistent"
   ],
   "note": "Exact minimiser proved at a zero residual, for any adjoint pair and for the Stiefel manifold; loop bounds proved. After an early stop the direction and the warm start do not belong together (proved). Convergence of the Newton iteration is not proved."
  },
  {
   "property": "C73",
   "status": "proved",
   "theorems": [
    "Verif.Prox.C73_operator_symmetric",
    "Verif.Prox.C73_operator_nonneg",
    "Verif.Prox.C73_cg",
    "Verif.Prox.C73_newton_system"
   ],
   "note": "Exact arithmetic."
  },
  {
   "property": "C74",
   "status": "partial",
   "theorems": [
    "Verif.Problem.C74_gradient_error",
    "Verif.Problem.C74_gradient_quadratic",
    "Verif.Problem.C74_hessian_quadratic",
    "Verif.Problem.C74_hessian_error",
    "Verif.Problem.C74_hessian_mixed_wrong"
   ],
   "note": "Exact arithmetic. The Hessian bound holds when both gradients are numerical; with the mixed call of NumGradHess on a problem that overrides EucGrad it is wrong (proved)."
  },
  {
   "property": "C75",
   "status": "proved",
   "theorems": [
    "Verif.TRRun.C75_trust_region",
    "Verif.PG.C75_proximal",
    "Verif.PG.C75_accelerated",
    "Verif.Problem.C75_stiefel_trust_region"
   ],
   "note": "Retraction as an arbitrary map into the set; QR retraction concretely."
  },
  {
   "property": "C76",
   "status": "proved",
   "theorems": [
    "Verif.Q2F.C76_metric",
    "Verif.Q2F.C76_vertical",
    "Verif.Q2F.C76_horizontal_unique",
    "Verif.Q2F.C76_metric_pos",
    "Verif.Q2F.C76_projection",
    "Verif.Q2F.C76_tangent_space"
   ],
   "note": ""
  },
  {
   "property": "C77",
   "status": "proved",
   "theorems": [
    "Verif.Stiefel.C77_qf",
    "Verif.Stiefel.C77_polar",
    "Verif.Stiefel.C77_cayley",
    "Verif.FixedRank.C77_fixed_rank",
    "Verif.Q2F.C77_two_factor",
    "Verif.SymFR.C77_sym_extrinsic",
    "Verif.SymFR.C77_sym_spectral",
    "Verif.SPD.C77_spd_second_order",
    "Verif.SPD.C77_spd_exponential"
   ],
   "note": "Factorisations by their specification, real arithmetic. The sphere is under C33 (its exponential gives NaN at zero)."
  },
  {
   "property": "C78",
   "status": "partial",
   "theorems": [
    "Verif.Dims.C78_stiefel",
    "Verif.Dims.C78_grassmann",
    "Verif.Dims.C78_spd",
    "Verif.Dims.C78_sym",
    "Verif.Dims.C78_fixed_rank",
    "Verif.Dims.C78_euclidean",
    "Verif.Dims.C78_product",
    "Verif.Dims.C78_two_factor_fails",
    "Verif.CStiefel.C78_complex_stiefel",
    "Verif.CFixed.C78_herm",
    "Verif.CFixed.C78_ctwo_factor"
   ],
   "note": "False for real two-factor fixed-rank manifolds (negation proved: too large by the square of the rank; the complex one is right)."
  },
  {
   "property": "C79",
   "status": "partial",
   "theorems": [
    "Verif.Multi.C79_beta",
    "Verif.Multi.C79_product_beta_partial",
    "Verif.Multi.C79_product_beta_fails",
    "Verif.Multi.C79_beta_fallback"
   ],
   "note": "Proved for the formula of the single manifolds. False for products (proved): the length at the new point is measured with the metric of the old point."
  },
  {
   "property": "C80",
   "status": "proved",
   "theorems": [
    "Verif.SymFR.C80_metric",
    "Verif.SymFR.C80_vertical",
    "Verif.SymFR.C80_projection",
    "Verif.SymFR.C80_horizontal_unique",
    "Verif.SymFR.C80_metric_pos",
    "Verif.SymFR.C80_metric_pos_hgz",
    "Verif.SymFR.C80_projection_qeuc",
    "Verif.SymFR.C80_invariant"
   ],
   "note": "Real and complex; the Sylvester solver by its specification (Property C68)."
  },
  {
   "property": "C81",
   "status": "partial",
   "theorems": [
    "Verif.SymFR.C80_retraction",
    "Verif.SymFR.C80_retraction_ray",
    "Verif.SymFR.C80_retraction_zero",
    "Verif.SymFR.C80_retraction_small",
    "Verif.SymFR.C81_nearest"
   ],
   "note": "Factorisations by their specification. False when the matrix has fewer than 2p rows: the code reads outside the eigenvalue array (proved)."
  },
  {
   "property": "C82",
   "status": "partial",
   "theorems": [
    "Verif.SymFR.C82_sym_projection_partial",
    "Verif.SymFR.C82_sym_projection_fails",
    "Verif.CFixed.C82_herm_projection_partial",
    "Verif.CFixed.C82_herm_projection_fails"
   ],
   "note": "False in the code (negation proved for two metrics); proved when the vector is tangent at both points."
  },
  {
   "property": "C83",
   "status": "proved",
   "theorems": [
    "Verif.Wavelet.C83_one_dim",
    "Verif.Wavelet.C83_one_dim_inverse",
    "Verif.Wavelet.C83_matrix",
    "Verif.Wavelet.C83_matrix_inverse",
    "Verif.Wavelet.C83_unitary",
    "Verif.Wavelet.C83_adjoint",
    "Verif.Wavelet.C83_bounds"
   ],
   "note": "Exact complex arithmetic; the real and imaginary parts, treated alike by the code, form one entry."
  },
  {
   "property": "C84",
   "status": "proved",
   "theorems": [
    "Verif.LSR1.C84_compact",
    "Verif.LSR1.C84_symm",
    "Verif.LSR1.C84_secant",
    "Verif.LSR1.C84_rejected",
    "Verif.LSR1.C84_accepts",
    "Verif.LSR1.C84_flag"
   ],
   "note": "The equality with the recursion assumes that no update of the recursion divides by zero, the secant equation that the linear system has a unique solution; transports are isometries. A second Run of the same object does not start from an empty memory (Currentlength is not reset) and is outside the claim."
  },
  {
   "property": "C85",
   "status": "partial",
   "theorems": [
    "Verif.LSR1.C85_interior_partial",
    "Verif.LSR1.C85_boundary_partial",
    "Verif.LSR1.C85_hard_partial",
    "Verif.LSR1.C85_hard_undefined",
    "Verif.LSR1.C85_fails_hard",
    "Verif.LSR1.C85_fails_hard_long",
    "Verif.LSR1.C85_fails_interior"
   ],
   "note": "False in the code: the hard case uses I + P P^T instead of I - P P^T (uphill step, or step outside the region), combines arrays of different sizes with two or more pairs, and gradients shorter than 1e-5 are treated as zero when the length of the step is tested. Proved: global optimality of interior and boundary steps when nothing is dropped as small, monotone convergence of the scalar iteration from the left, the correct hard cases."
  },
  {
   "property": "C86",
   "status": "proved",
   "theorems": [
    "Verif.Dense.C86_add_sub",
    "Verif.Dense.C86_axpy",
    "Verif.Dense.C86_scal",
    "Verif.Dense.C86_real_scalar",
    "Verif.Dense.C86_complex_scalar",
    "Verif.Dense.C86_mul",
    "Verif.Dense.C86_ab",
    "Verif.Dense.C86_ab_complex",
    "Verif.Dense.C86_diag",
    "Verif.Dense.C86_rankone",
    "Verif.Dense.C86_rankone_complex",
    "Verif.Dense.C86_dot",
    "Verif.Dense.C86_columns",
    "Verif.Dense.C86_hadamard",
    "Verif.Dense.C86_entrywise",
    "Verif.Dense.C86_compare",
    "Verif.Dense.C86_conj_embed",
    "Verif.Dense.C86_identity",
    "Verif.Dense.C86_scaled_identity",
    "Verif.Dense.C86_expand",
    "Verif.Dense.C86_chol_input",
    "Verif.Dense.C86_qr_factor"
   ],
   "note": "BLAS routines by their definition, exact real arithmetic, the first slice of an array; the receiver of a gemm is not one of its operands; LAPACK factorisations themselves are assumed."
  },
  {
   "property": "C87",
   "status": "partial",
   "theorems": [
    "Verif.Dense.C87_checks_partial",
    "Verif.Dense.C87_sum_shape_false",
    "Verif.Dense.C87_receiver_shape_false",
    "Verif.Dense.C87_rankone_complex_false",
    "Verif.Dense.C87_rankone_no_conj_false",
    "Verif.Dense.C87_real_part_false",
    "Verif.Dense.C87_scaled_identity_complex_false",
    "Verif.Dense.C87_slices_ignored_false"
   ],
   "note": "False in the code: sums and inner products compare only the number of stored values (a 2x3 plus a 3x2 matrix, a real plus a complex element); alpha A B + beta C compares only the number of entries of the receiver; rank-one updates with a real factor compute something else for complex elements, with a complex factor they do not conjugate; the real and imaginary parts of a complex element are packed into half of an uninitialised array; a multiple of the identity leaves complex square matrices unchanged; products ignore all slices but the first. What is checked is proved."
  },
  {
   "property": "C88",
   "status": "proved",
   "theorems": [
    "Verif.CStiefel.C88_projection",
    "Verif.CStiefel.C88_gradient",
    "Verif.CStiefel.C88_canonical_gradient",
    "Verif.CStiefel.C88_hessian",
    "Verif.CStiefel.C88_hessian_is_covariant_derivative",
    "Verif.CStiefel.C88_qf_retraction",
    "Verif.CStiefel.C88_qf_zero",
    "Verif.CStiefel.C88_qf_diff_retraction",
    "Verif.CStiefel.C88_polar_retraction",
    "Verif.CStiefel.C88_polar_diff_retraction",
    "Verif.CStiefel.C88_extr_intr",
    "Verif.CStiefel.C88_intr_extr",
    "Verif.CStiefel.C88_isometry"
   ],
   "note": "Factorisations by their specification (QR with real diagonal, as LAPACK returns; economy SVD), exact arithmetic."
  },
  {
   "property": "C89",
   "status": "partial",
   "theorems": [
    "Verif.CStiefel.C89_normal_intr_extr_partial",
    "Verif.CStiefel.C89_normal_extr_partial",
    "Verif.CStiefel.C89_normal_isometry_partial",
    "Verif.CStiefel.C89_normal_extr_false",
    "Verif.CStiefel.C89_overflow_false"
   ],
   "note": "False in the code: ObtainNorVerExtr leaves the imaginary parts of the diagonal uninitialised, so the result depends on the memory and is normal only if it contained zeros (proved for every point and coordinates); the canonical Hessian and InvPolarRetraction write a complex p x p product into a real p x p array (proved for all sizes). Proved: coordinates are recovered whatever the memory contained, and the isometry."
  },
  {
   "property": "C90",
   "status": "proved",
   "theorems": [
    "Verif.SubDir.C90_second_order_is_shortest",
    "Verif.SubDir.C90_exact_solver",
    "Verif.SubDir.C90_vertices_pass_the_test",
    "Verif.SubDir.C90_not_shortest"
   ],
   "note": "The statement includes the insufficiency of the gradient test (proved). That the trust-region solver converges to a second-order point is not proved. Inner product: DotProduct of the stored vectors, as in the code."
  },
  {
   "property": "C91",
   "status": "proved",
   "theorems": [
    "Verif.SubDir.C91_direction",
    "Verif.SubDir.C91_rgs"
   ],
   "note": "Subproblem solved exactly (C90), exact arithmetic, tangent spaces as one inner product space."
  },
  {
   "property": "C92",
   "status": "proved",
   "theorems": [
    "Verif.SubDir.C92_corrected_pair",
    "Verif.SubDir.C92_rbfgs",
    "Verif.SubDir.C92_rbfgs_secant",
    "Verif.SubDir.C92_lrbfgs"
   ],
   "note": "Isometric transports, exact arithmetic; within one run (second runs: C26)."
  },
  {
   "property": "C93",
   "status": "partial",
   "theorems": [
    "Verif.SubDir.C93_progress_partial",
    "Verif.SubDir.C93_finite_partial",
    "Verif.SubDir.C93_convex_found",
    "Verif.SubDir.C93_increasing_misses",
    "Verif.SubDir.C93_gradient_of_other_point"
   ],
   "note": "Proved whenever the inner search succeeds, and that it succeeds for functions convex along rays. False in general: the comparison value uses the full step Eps/|eta1| instead of the trial step, so the bisection can leave the interval of increase (proved for a Lipschitz function on the line, any number of samples); after ten passes the stored gradient belongs to the last but one trial point but is transported from the last."
  },
  {
   "property": "C94",
   "status": "proved",
   "theorems": [
    "Verif.MatFun.C94_divisions",
    "Verif.MatFun.C94_triangular",
    "Verif.MatFun.C94_cholesky_solve",
    "Verif.MatFun.C94_sylvester",
    "Verif.MatFun.C94_sylvester_posDef"
   ],
   "note": "LAPACK routines are parameters with their documented contract; exact arithmetic. Singular divisors are outside (the code ignores info)."
  },
  {
   "property": "C95",
   "status": "partial",
   "theorems": [
    "Verif.MatFun.C95_exp",
    "Verif.MatFun.C95_log",
    "Verif.MatFun.C95_log_refused",
    "Verif.MatFun.C95_inverse",
    "Verif.MatFun.C95_lu",
    "Verif.MatFun.C95_cache_ignores_triangle"
   ],
   "note": "Proved for symmetric matrices and for sequences that use one triangle. False otherwise: the cached decomposition is reused for the other triangle argument (proved). LogSym of a matrix that is not positive definite returns the matrix itself (proved)."
  },
  {
   "property": "C96",
   "status": "proved",
   "theorems": [
    "Verif.MatFun.C96_columns",
    "Verif.MatFun.C96_rows"
   ],
   "note": "The thin singular value decomposition is a parameter with its documented contract."
  },
  {
   "property": "C97",
   "status": "partial",
   "theorems": [
    "Verif.MatFun.C97_real",
    "Verif.MatFun.C97_complex_partial",
    "Verif.MatFun.C97_complex_parts"
   ],
   "note": "Proved for real elements. For complex elements the functions act on real and imaginary parts separately (negation proved), so they are right only for nonnegative real entries."
  },
  {
   "property": "C98",
   "status": "proved",
   "theorems": [
    "Verif.Karcher.C98_cost",
    "Verif.Karcher.C98_gradient",
    "Verif.Karcher.C98_hessian"
   ],
   "note": "LAPACK routines are parameters with their documented contract; the Daleckii-Krein formula is proved in Verif.Problem.Spectral without assuming that the decomposition varies continuously."
  },
  {
   "property": "C99",
   "status": "proved",
   "theorems": [
    "Verif.Solver.C99_armijo_converges",
    "Verif.Solver.C99_default_accuracy_unchecked"
   ],
   "note": "Both parts: the bound when Accuracy is small enough, and the accepted increase with the default Accuracy (C99_default_accuracy_unchecked: a step multiplies the objective by nine)."
  },
  {
   "property": "C100",
   "status": "proved",
   "theorems": [
    "Verif.Solver.C100_wolfe_run"
   ],
   "note": "Failure of a search ends the run and is a separate outcome (the zoom phase is limited to nine trials)."
  },
  {
   "property": "C101",
   "status": "proved",
   "theorems": [
    "Verif.TRRun.C101_tr_converges",
    "Verif.TR.C101_rtr_newton_converges"
   ],
   "note": "Hypothesis on Accuracy as in C99; the constants are explicit."
  },
  {
   "property": "C102",
   "status": "partial",
   "theorems": [
    "Verif.Solver.C102_terminates",
    "Verif.Solver.C102_consistent",
    "Verif.Solver.C102_no_increase_partial",
    "Verif.Solver.C102_strongly_convex",
    "Verif.Solver.C102_quadratic",
    "Verif.Solver.C102_success_may_increase"
   ],
   "note": "False in the code: when an inner search gives up, the value is compared with f1 + LS_alpha*step*|gf1| (an increase) instead of the slope, so a step can be reported as success although the objective grew (proved). True when no inner search gives up, in particular along strongly convex rays with bounded curvature."
  },
  {
   "property": "C103",
   "status": "proved",
   "theorems": [
    "Verif.Dispatch.C103_inverse_iff",
    "Verif.Dispatch.C103_operator_iff",
    "Verif.Dispatch.C103_set_forgets",
    "Verif.Dispatch.C103_set_table",
    "Verif.Dispatch.C103_flag",
    "Verif.Dispatch.C103_params_lose_flag",
    "Verif.Dispatch.C103_spd",
    "Verif.Dispatch.C103_spd_params",
    "Verif.Dispatch.C103_symFR",
    "Verif.Dispatch.C103_new",
    "Verif.Dispatch.C103_fixedRankE_undefined",
    "Verif.Dispatch.C103_intr_breaks",
    "Verif.Dispatch.C103_sphere_same"
   ],
   "note": "Characterisation in both directions. The selected maps (projections, Cayley, parallel translation, coordinates) are parameters with the properties proved for them elsewhere."
  },
  {
   "property": "C104",
   "status": "proved",
   "theorems": [
    "Verif.Dispatch.C104_beta",
    "Verif.Dispatch.C104_inner",
    "Verif.Dispatch.C104_wolfe_positive",
    "Verif.Dispatch.C104_unscaled_positive",
    "Verif.Dispatch.C104_unscaled_fails",
    "Verif.Dispatch.C104_classes"
   ],
   "note": "Includes the negative part: the product of manifolds does not override Beta because the parameter types differ."
  },
  {
   "property": "C105",
   "status": "proved",
   "theorems": [
    "Verif.Decomp.C105_qr",
    "Verif.Decomp.C105_qr_exists",
    "Verif.Decomp.C105_svd",
    "Verif.Decomp.C105_apply",
    "Verif.Decomp.C105_reduces",
    "Verif.Decomp.C105_wrong_character"
   ],
   "note": "LAPACK routines are parameters with their documented contract."
  },
  {
   "property": "C106",
   "status": "partial",
   "theorems": [
    "Verif.Random.C106_standard_normal",
    "Verif.Random.C106_draw",
    "Verif.Random.C106_gaussian",
    "Verif.Random.C106_documented_iff",
    "Verif.Random.C106_uniform"
   ],
   "note": "False in the code for RandGaussian: it computes (z + mean) * variance, i.e. mean*variance and variance squared. The documented distribution holds exactly for variance one, or variance and mean zero (C106_documented_iff, both directions). The numbers of rand() are modelled as a sequence of reals, the constant as 2 pi."
  },
  {
   "property": "C107",
   "status": "proved",
   "theorems": [
    "Verif.RandomPoint.C107_stiefel",
    "Verif.RandomPoint.C107_cstiefel",
    "Verif.RandomPoint.C107_spd",
    "Verif.RandomPoint.C107_factors",
    "Verif.RandomPoint.C107_too_many_columns",
    "Verif.RandomPoint.C107_fixedRankE",
    "Verif.RandomPoint.C107_sphereTx",
    "Verif.RandomPoint.C107_product"
   ],
   "note": "Almost-sure statements are for independent uniform numbers; LAPACK routines are parameters with their documented contract."
  },
  {
   "property": "C108",
   "status": "proved",
   "theorems": [
    "Verif.BlindDecon.C108_gradient",
    "Verif.BlindDecon.C108_zero",
    "Verif.BlindDecon.C108_penalty_reads_outside",
    "Verif.BlindDecon.C108_hessian",
    "Verif.BlindDecon.C108_hessian_symmetric"
   ],
   "note": "FFTW's transform is its documented formula; the wavelet transforms are the model of C83; exact arithmetic. One column (r = 1), since Reshape(n1, n2) asserts otherwise. The Hessian of the penalty is omitted by the code and its comment says so."
  },
  {
   "property": "C109",
   "status": "proved",
   "theorems": [
    "Verif.FixedRankNor.C109_extr",
    "Verif.FixedRankNor.C109_intr",
    "Verif.FixedRankNor.C109_missing"
   ],
   "note": "LAPACK's QR factorisation is a parameter with its documented contract; exact arithmetic."
  },
  {
   "property": "C110",
   "status": "proved",
   "theorems": [
    "Verif.EigHess.C110_first_order",
    "Verif.EigHess.C110_second_order",
    "Verif.EigHess.C110_accuracy",
    "Verif.EigHess.C110_warning_misses"
   ],
   "note": "The run of the trust-region solver itself is C101; that it reaches a second-order point from a random start is not proved."
  },
  {
   "property": "C111",
   "status": "proved",
   "theorems": [
    "Verif.EigHess.C111_first",
    "Verif.EigHess.C111_first_iff",
    "Verif.EigHess.C111_second",
    "Verif.EigHess.C111_second_iff",
    "Verif.EigHess.C111_accepts_wrong"
   ],
   "note": "The sequence of halved steps is continued without the limit of 35; exact arithmetic."
  },
  {
   "property": "C112",
   "status": "proved",
   "theorems": [
    "Verif.Solver.C112_lrbfgs_armijo",
    "Verif.Solver.C112_lrbfgs_default",
    "Verif.Solver.C112_lrbfgs_wolfe"
   ],
   "note": "Exact arithmetic; the vector transport is an isometry (as in LRBFGS' analysis); Minstepsize must lie below a worst-case bound that depends on the requested gradient norm, and Accuracy must be small, as in C99."
  },
  {
   "property": "C113",
   "status": "proved",
   "theorems": [
    "Verif.Solver.C113_default_steps",
    "Verif.Solver.C113_any_rule"
   ],
   "note": "Exact arithmetic. That a rule may produce NaN is C57."
  },
  {
   "property": "C114",
   "status": "proved",
   "theorems": [
    "Verif.Solver.C114_qn_armijo",
    "Verif.Solver.C114_qn_any_rule",
    "Verif.Solver.C114_qn_default",
    "Verif.Solver.C114_qn_wolfe"
   ],
   "note": "Exact arithmetic; the vector transport is an isometry; Armijo search with Num_pre_funs at most one; Minstepsize must lie below a worst-case bound that depends on the requested gradient norm, and Accuracy must be small, as in C99. If isconvex is set, the pairs of a step and the change of the gradient are assumed uniformly positive."
  },
  {
   "property": "C115",
   "status": "proved",
   "theorems": [
    "Verif.FFT.C115_fft_is_matrix_transform",
    "Verif.FFT.C115_round_trip",
    "Verif.FFT.C115_adjoint",
    "Verif.FFT.C115_parseval",
    "Verif.FFT.C115_blind_deconvolution"
   ],
   "note": "FFTW itself is represented by the formula of its manual for row-major arrays. Exact arithmetic."
  },
  {
   "property": "C116",
   "status": "proved",
   "theorems": [
    "Verif.Solver.C116_fletcher_reeves",
    "Verif.Solver.C116_dai_yuan",
    "Verif.Solver.C116_weights_diverge"
   ],
   "note": "Exact arithmetic; the vector transport is an isometry. The methods of Polak and Ribiere, Hestenes and Stiefel and Hager and Zhang are not covered here (the latter two: C117, for convex problems). A preconditioner is excluded because the code uses it in sigma but not in the new direction."
  },
  {
   "property": "C117",
   "status": "proved",
   "theorems": [
    "Verif.Solver.C117_armijo",
    "Verif.Solver.C117_bb",
    "Verif.Solver.C117_bb_value"
   ],
   "note": "Exact arithmetic; isometric vector transport; the metric does not depend on the point (the code evaluates the metric at the old point on vectors of the new one). First run of the solver object: pre_BBs is not cleared by a second call of Run. Minstepsize and Accuracy small as in C99."
  },
  {
   "property": "C118",
   "status": "proved",
   "theorems": [
    "Verif.Obj.C118_run_independent",
    "Verif.Obj.C118_rsd",
    "Verif.Obj.C118_rcg",
    "Verif.Obj.C118_rbfgs",
    "Verif.Obj.C118_continue",
    "Verif.Obj.C118_bb_history_leaks",
    "Verif.Obj.C118_user_stop_gets_old_iterate",
    "Verif.Obj.C118_rbfgs_keeps_operator"
   ],
   "note": "The provisos are needed (each with a concrete run): with Num_pre_BB > 0 steps of an earlier problem are used after SetProbX; without SetProbX a stopping function of the user is first called with the previous iterate instead of the start, and RBFGS starts with the operator of the earlier run. The Armijo search is modelled in full, other searches are arbitrary functions of the members they may read. The clock is not modelled."
  },
  {
   "property": "C119",
   "status": "proved",
   "theorems": [
    "Verif.Obj.C119_run_independent",
    "Verif.Obj.C119_rtr",
    "Verif.Obj.C119_rtrsr1",
    "Verif.Obj.C119_continue",
    "Verif.Obj.C119_radius_bounded",
    "Verif.Obj.C119_sr1_keeps_operator"
   ],
   "note": "Without SetProbX RTRSR1 starts with the operator of the earlier run (concrete run). LRTRSR1, which keeps the length of its buffers while reallocating them, is not covered (C26)."
  },
  {
   "property": "C120",
   "status": "proved",
   "theorems": [
    "Verif.TR.C120_tcg_energy",
    "Verif.TR.C120_tcg_finite",
    "Verif.TR.C120_pass",
    "Verif.TR.C120_fast",
    "Verif.TR.C120_steps_exist"
   ],
   "note": "Exact arithmetic. The neighbourhood is described by the structure Basin (Taylor bounds on steps of length at most |g|/mu, positive definite Hessian); it is inhabited by the quartic x^2+x^4, for which a run is evaluated. Min_Inner_Iter = 0 and a cap of at least the dimension are assumed, as by default for dimensions up to 1000."
  },
  {
   "property": "C121",
   "status": "proved",
   "theorems": [
    "Verif.TR.C121_direction",
    "Verif.TR.C121_newton_step",
    "Verif.TR.C121_newton_converges",
    "Verif.TR.C121_newton_fast",
    "Verif.TR.C121_dimension_one",
    "Verif.TR.C121_default_is_linear"
   ],
   "note": "Finding: with the default Min_Inner_Iter = 0 the result of an inner loop that is left in its first pass is replaced by the preconditioned steepest descent direction; on one-dimensional manifolds this always happens, and on f(x) = x^2/4 the solver halves the iterate in each of twenty iterations although the Newton step is exact. The superlinear rate therefore needs Min_Inner_Iter >= 1. Exact arithmetic apart from the machine epsilon in the slope test."
  },
  {
   "property": "C122",
   "status": "partial",
   "theorems": [
    "Verif.Mex.C122_round_trip",
    "Verif.Mex.C122_call",
    "Verif.Mex.C122_tensor_fields_overrun",
    "Verif.Mex.C122_real_result_overruns"
   ],
   "note": "Proved for fields that are matrices with names below 30 bytes other than \"main\". False for attached fields with a third dimension of two or more: mxGetN already contains the third dimension and it is multiplied in again, so the copy reads past the end (C122_tensor_fields_overrun). A real array returned for a complex element is also read past its end (C122_real_result_overruns)."
  },
  {
   "property": "C123",
   "status": "proved",
   "theorems": [
    "Verif.Mex.C123_caching_transparent",
    "Verif.Mex.C123_stale_counter"
   ],
   "note": "C123_stale_counter shows that the assumption is needed: a field that is no function of the point is never refreshed."
  },
  {
   "property": "C124",
   "status": "partial",
   "theorems": [
    "Verif.Driver.C124_manifold_by_name_partial",
    "Verif.Driver.C124_quotient_name_gives_embedded",
    "Verif.Driver.C124_solver_by_name",
    "Verif.Driver.C124_factors_mex",
    "Verif.Driver.C124_factors_julia_partial",
    "Verif.Driver.C124_julia_default_leaks",
    "Verif.Driver.C124_unknown_is_null_call",
    "Verif.Driver.C124_unknown_is_null_call_mex",
    "Verif.Driver.C124_positions",
    "Verif.Driver.C124_names"
   ],
   "note": "False in three respects, each proved: \"FixedRankQ2F\" gives FixedRankE; in Julia the default parameter set (-1) takes over the set of the previous factor; unknown manifolds are called through the null pointer before the test (both interfaces). Everything else is proved."
  },
  {
   "property": "C125",
   "status": "partial",
   "theorems": [
    "Verif.Driver.C125_parameters",
    "Verif.Driver.C125_result_partial",
    "Verif.Driver.C125_no_start_garbled"
   ],
   "note": "Proved when the user passes a start. With an empty start (the C++ side then chooses a random one) the Julia side takes the array apart with length zero and returns garbage: C125_no_start_garbled. The complex branch of the Julia function is not modelled (it uses a type that no longer exists)."
  },
  {
   "property": "C126",
   "status": "proved",
   "theorems": [
    "Verif.TR.C126_global_then_fast",
    "Verif.TR.C126_numbers_exist"
   ],
   "note": "Exact arithmetic, no preconditioner, stopping by the gradient norm, Min_Iteration = 0."
  },
  {
   "property": "C127",
   "status": "proved",
   "theorems": [
    "Verif.Solver.C127_linear_rate",
    "Verif.Solver.C127_steps_exist",
    "Verif.Solver.C127_rsd_rcg",
    "Verif.Solver.C127_lrbfgs",
    "Verif.TR.C127_newton"
   ],
   "note": "Exact arithmetic; Num_pre_funs <= 1; RCG for the direction formulas covered by C117."
  },
  {
   "property": "C128",
   "status": "proved",
   "theorems": [
    "Verif.PG.C128_manpg_converges",
    "Verif.PG.C128_stalls",
    "Verif.PG.C128_floor_needed"
   ],
   "note": "Exact arithmetic and exact subproblems. The default adaptive variant, which lowers the weight after full steps, is not covered."
  },
  {
   "property": "C129",
   "status": "partial",
   "theorems": [
    "Verif.Obj.C129_run_independent",
    "Verif.Obj.C129_reuse",
    "Verif.Obj.C129_larger_problem_ub",
    "Verif.Obj.C129_larger_problem",
    "Verif.Obj.C129_adaptive_leaks",
    "Verif.Obj.C129_accuracy_leaks"
   ],
   "note": "The title is false in the code (negations proved); proved for the regular variant, successful searches and equal sizes. The subproblem solver is a parameter; that it reads as many entries of the dual vector as the normal dimension (Stiefel::ObtainNorVerExtr) is a hypothesis."
  },
  {
   "property": "C130",
   "status": "partial",
   "theorems": [
    "Verif.Obj.C130_run_natural",
    "Verif.Obj.C130_rsd",
    "Verif.Obj.C130_rcg",
    "Verif.Obj.C130_rbfgs",
    "Verif.Obj.C130_stiefel_intrinsic",
    "Verif.Obj.C130_grassmann_intrinsic",
    "Verif.Obj.C130_grassmann_subspace",
    "Verif.Obj.C130_grassmann_transport"
   ],
   "note": "The title is false in the code for the solvers that transport vectors on Grassmann with extrinsic vectors (C130_grassmann_transport: the projection transport distinguishes bases of one subspace). Armijo search only; the Barzilai-Borwein initial step needs the transport. The manifold instances use exact real arithmetic and take the Householder factorisation as given; f is a function of the subspace and G its gradient."
  },
  {
   "property": "C131",
   "status": "proved",
   "theorems": [
    "Verif.Obj.C131_qf_second_order",
    "Verif.Obj.C131_qf_taylor",
    "Verif.Obj.C131_stiefel_uniform",
    "Verif.Obj.C131_grassmann_uniform",
    "Verif.Obj.C131_stiefel_rsd",
    "Verif.Obj.C131_grassmann_rsd",
    "Verif.Obj.C131_stiefel_rsd_rule",
    "Verif.Obj.C131_stiefel_newton",
    "Verif.Obj.C131_stiefel_rtr_newton",
    "Verif.Obj.C131_brockett",
    "Verif.Obj.C131_rayleigh",
    "Verif.Obj.C131_brockett_rsd",
    "Verif.Obj.C131_brockett_rtr_newton"
   ],
   "note": "Exact real arithmetic; the Householder factorisation enters as an oracle with the specification of a QR factorisation. Monotone Armijo search; quadratic interpolation for the initial step (any rule that returns positive numbers in C131_stiefel_rsd_rule). Smallest step / radius must lie below an explicit bound."
  },
  {
   "property": "C132",
   "status": "proved",
   "theorems": [
    "Verif.TR.C132_guarded_newton_converges",
    "Verif.EigHess.C132_eigenvalue_run",
    "Verif.EigHess.C132_smallest"
   ],
   "note": "Exact real arithmetic, with the machine epsilon of the guard in the retraction and of the smallest radius as a parameter. The iteration limit is an argument (the default limit is too small for the worst-case bound). For a start that separates no eigenvalue only some eigenvalue is guaranteed (C110 shows that the program cannot tell)."
  },
  {
   "property": "C133",
   "status": "proved",
   "theorems": [
    "Verif.Check.C133_intr_extr",
    "Verif.Check.C133_intr_extr_blind",
    "Verif.Check.C133_isometry",
    "Verif.Check.C133_isometry_intr",
    "Verif.Check.C133_isometry_inner",
    "Verif.Check.C133_compose",
    "Verif.Check.C133_compose_intr",
    "Verif.Check.C133_inverse_isometry",
    "Verif.Check.C133_inverse_isometry_intr",
    "Verif.Check.C133_cotangent",
    "Verif.Check.C133_cotangent_intr",
    "Verif.Check.C133_cotangent_blind",
    "Verif.Check.C133_locking",
    "Verif.Check.C133_locking_intr",
    "Verif.Check.C133_base_inverse",
    "Verif.Check.C133_retraction",
    "Verif.Check.C133_diff",
    "Verif.Check.C133_sphere_transport",
    "Verif.Check.C133_sphere_cotangent",
    "Verif.Check.C133_sphere_retraction",
    "Verif.Check.C133_tx_diff",
    "Verif.Check.C133_tx_cotangent"
   ],
   "note": "Findings: CheckIntrExtr does not notice superfluous coordinates; CheckcoTangentVector passes for every class that inherits DiffRetraction and coTangentVector from the base class, whatever its retraction (for instance SphereTx, whose DiffRetraction is wrong for directions other than the step, as CheckDiffRetraction then shows). Where vectors are drawn at the new point the code multiplies by the length instead of normalising; this leaves out no tangent vector. NaN counts as disagreement, so a draw that is projected to zero has to be excluded for the exponential map."
  },
  {
   "property": "C134",
   "status": "proved",
   "theorems": [
    "Verif.Obj.C134_run_natural",
    "Verif.Obj.C134_rtr",
    "Verif.Obj.C134_rtrsr1",
    "Verif.Obj.C134_stiefel_intrinsic",
    "Verif.Obj.C134_stiefel_intrinsic_sd",
    "Verif.Obj.C134_grassmann_intrinsic",
    "Verif.Obj.C134_grassmann_subspace"
   ],
   "note": "For the matrix manifolds the numbers are real and there is no preconditioner; HHRDecom is an oracle with its specification as hypothesis. By C130_grassmann_transport the transport of Grassmann with extrinsic vectors depends on the basis, so RTRSR1 on Grassmann does not satisfy the hypothesis of C134_rtrsr1."
  },
  {
   "property": "C135",
   "status": "proved",
   "theorems": [
    "Verif.Obj.C135_ray",
    "Verif.Obj.C135_searches",
    "Verif.Obj.C135_stiefel_slope",
    "Verif.Obj.C135_grassmann_slope",
    "Verif.Obj.C135_stiefel_ray",
    "Verif.Obj.C135_grassmann_ray",
    "Verif.Obj.C135_grassmann_ray_basis",
    "Verif.Obj.C135_grassmann_diff_not_horizontal"
   ],
   "note": "Real arithmetic. HHRDecom is an oracle with its specification as hypothesis; factors exist in all sizes (exists_hhr). Grassmann.cpp:116 returns the tangent vector of the Stiefel manifold without projecting it, which changes the beta field with extrinsic vectors (C135_grassmann_diff_not_horizontal)."
  },
  {
   "property": "C136",
   "status": "proved",
   "theorems": [
    "Verif.Obj.C136_rsd_affine",
    "Verif.Obj.C136_rtrnewton_affine",
    "Verif.Obj.C136_ray_affine",
    "Verif.Obj.C136_slope",
    "Verif.Obj.C136_ray_intrinsic",
    "Verif.Obj.C136_intrinsic",
    "Verif.Obj.C136_rcg_triangular",
    "Verif.Obj.C136_rbfgs_triangular",
    "Verif.Obj.C136_rtrsr1_triangular",
    "Verif.Obj.C136_transport_not_affine",
    "Verif.Obj.C136_karcher_rsd",
    "Verif.Obj.C136_karcher_rtrnewton"
   ],
   "note": "Real arithmetic; Armijo search in the runs of the line-search solvers, without the Barzilai-Borwein initial step for general A. The Cholesky factor is an oracle with its specification as hypothesis; it exists in all sizes (exists_cholesky)."
  },
  {
   "property": "C137",
   "status": "proved",
   "theorems": [
    "Verif.Obj.C137_stiefel_rcg",
    "Verif.Obj.C137_grassmann_rcg",
    "Verif.Obj.C137_stiefel_rsd",
    "Verif.Obj.C137_grassmann_rsd",
    "Verif.Obj.C137_stiefel_rsd_intrinsic",
    "Verif.Obj.C137_grassmann_rsd_intrinsic",
    "Verif.Obj.C137_stiefel_rtrnewton",
    "Verif.Obj.C137_grassmann_rtrnewton",
    "Verif.Obj.C137_stiefel_rtrnewton_intrinsic",
    "Verif.Obj.C137_grassmann_rtrnewton_intrinsic",
    "Verif.Obj.C137_stiefel_ray",
    "Verif.Obj.C137_grassmann_ray",
    "Verif.Obj.C137_brockett_rtrnewton",
    "Verif.Obj.C137_rayleigh_rcg"
   ],
   "note": "Real arithmetic; Armijo search in the runs of the line-search solvers, without the Barzilai-Borwein initial step for intrinsic vectors."
  },
  {
   "property": "C138",
   "status": "proved",
   "theorems": [
    "Verif.Obj.C138_rsd",
    "Verif.Obj.C138_rcg",
    "Verif.Obj.C138_rtrnewton",
    "Verif.Obj.C138_ray",
    "Verif.Obj.C138_regroup",
    "Verif.Obj.C138_regroup_rtrnewton",
    "Verif.Obj.C138_regroup_ray",
    "Verif.Obj.C138_single",
    "Verif.Obj.C138_single_rtrnewton",
    "Verif.Obj.C138_mixed_rsd",
    "Verif.Obj.C138_mixed_rtrnewton",
    "Verif.Obj.C138_mixed_ray"
   ],
   "note": "Real arithmetic (the sum in the metric runs in another order); Armijo search in the runs of the line-search solvers; the product is intrinsic, as its constructors make it; (c) for factors of one size, without the Barzilai-Borwein initial step."
  },
  {
   "property": "C139",
   "status": "partial",
   "theorems": [
    "Verif.Obj.C139_any_search",
    "Verif.Obj.C139_armijo",
    "Verif.Obj.C139_run",
    "Verif.Obj.C139_exact",
    "Verif.Obj.C139_input",
    "Verif.Obj.C139_strong_wolfe_partial",
    "Verif.Obj.C139_weak_wolfe_partial",
    "Verif.Obj.C139_weak_wolfe_gradient_partial",
    "Verif.Obj.C139_iterations",
    "Verif.Obj.C139_tr_partial",
    "Verif.Obj.rtr_acceptsGrad",
    "Verif.Obj.rtrsr1_acceptsGrad",
    "Verif.Obj.C139_strong_wolfe_fails",
    "Verif.Obj.C139_weak_wolfe_fails",
    "Verif.Obj.C139_tr_history_fails"
   ],
   "note": "False in three places, each with a concrete run on the line and default parameters: a strong Wolfe search that gives up leaves the gradient of an earlier point, or the empty vector set by SetProbX (10^12 x^2 from 1); a weak Wolfe search that doubles its step back to the initial length reports success with the gradient of half the step (4x^4-3x^2-x from 0); trust-region runs record rejected candidates."
  },
  {
   "property": "C140",
   "status": "partial",
   "theorems": [
    "Verif.Obj.C140_ascending",
    "Verif.Obj.C140_inside",
    "Verif.Obj.C140_shrinks",
    "Verif.Obj.C140_between",
    "Verif.Obj.C140_descending_ignores",
    "Verif.Obj.C140_first_ignores",
    "Verif.Obj.C140_gives_up",
    "Verif.Obj.C140_misses_step"
   ],
   "note": "Proved: trials are strictly inside the bracket, brackets shrink by max(LS_ratio2, 1 - LS_ratio1), the step left by Zoom is strictly inside its first bracket, and on ascending brackets the trial is the safeguarded minimizer. False: on a descending bracket the trial is always lo + LS_ratio2 (hi - lo) and in the first bracket (value at 0 taken as the greatest number) always LS_ratio1 times the step, whatever the values; hence a search fails after ten evaluations if the steps LS_ratio1^k t, k <= 9, do not decrease enough, although acceptable steps exist (every parabola c/2 x^2 with c > 2*10^9 from 1, initial step 1)."
  },
  {
   "property": "C141",
   "status": "proved",
   "theorems": [
    "Verif.Obj.C141_line_search",
    "Verif.Obj.C141_rtrnewton",
    "Verif.Obj.C141_trust_region",
    "Verif.Obj.C141_rtrsd",
    "Verif.Obj.C141_rtrsr1",
    "Verif.Obj.C141_tr_bounds",
    "Verif.Obj.C141_armijo_one_gradient",
    "Verif.Obj.C141_totals"
   ],
   "note": "The statement is about dependence: problems which agree on as many values as the counters say give the same final object. AManPG is not covered and in the code does not count the two function values, the gradient and the two retractions of each pass (AManPG.cpp:206-215). Transports in InitialStepSize (Barzilai-Borwein) are not counted in nV, so no claim is made for nV."
  },
  {
   "property": "C142",
   "status": "proved",
   "theorems": [
    "Verif.Obj.C142_line_search",
    "Verif.Obj.C142_rtrnewton",
    "Verif.Obj.C142_trust_region"
   ],
   "note": "As for C141 the list of questions is tied to the run by dependence and by the counters. Points are compared as values; that the stored data travel with the point when two iterates are exchanged is the subject of the claims on the fields of an element."
  },
  {
   "property": "C143",
   "status": "proved",
   "theorems": [
    "Verif.Mem.C143_inplace",
    "Verif.Mem.C143_other_elements",
    "Verif.Mem.C143_own_field",
    "Verif.Mem.C143_self_axpy",
    "Verif.Mem.C143_self_gemm",
    "Verif.Fields.C143_assign_own_field",
    "Verif.Fields.C143_assign_other"
   ],
   "note": "The statement is the exact condition. The unsafe cases are undefined behaviour in the code as written (no assertion guards them). Excluded by hypothesis: x = x.Field(\"a\") when that field itself has a field called a. A freed label is never reused in the model; an operand overlapping with the output of gemm counts as undefined."
  },
  {
   "property": "C144",
   "status": "proved",
   "theorems": [
    "Verif.Obj.C144_consulted",
    "Verif.Obj.C144_uncounted",
    "Verif.Obj.C144_order",
    "Verif.Obj.C144_values"
   ],
   "note": "The statement is the exact bookkeeping of the code. Instances on the line: after three iterations with the default gap the start is returned although a smaller value was recorded, and 9 function values were computed but 3 counted; after seven iterations Getnormnd is still the norm at the start. The only assumption on the arithmetic is that < is irreflexive."
  },
  {
   "property": "C145",
   "status": "proved",
   "theorems": [
    "Verif.Obj.C145_safeguard_stops"
   ],
   "note": "Describes the code as it is; the default criterion NSM_DIR_F_0 is not affected. Assumes that (a - a)/(|a| + 1) is below the tolerance for finite a, true in IEEE arithmetic for every positive tolerance. The alternative 'ub' of the theorem is an initial dual vector of the wrong size (C129). Instance on the line: the run ends after 2 iterations at value 3/50, while the default criterion goes on for 9 iterations to a value eight orders of magnitude smaller."
  },
  {
   "property": "C146",
   "status": "proved",
   "theorems": [
    "Verif.Obj.C146_line_search",
    "Verif.Obj.C146_solvers",
    "Verif.Obj.C146_proximal",
    "Verif.Obj.C146_accelerated"
   ],
   "note": "Exact arithmetic. The strong Wolfe search starts with DBL_MAX in place of a function value; the theorem translates this constant too (DBL_MAX + c rounds to DBL_MAX). The quasi-Newton solvers with limited memory are covered through the hypothesis Hooks.Blind, proved for rsd, rcg, rbfgs."
  },
  {
   "property": "C147",
   "status": "partial",
   "theorems": [
    "Verif.Obj.C147_trust_region_partial",
    "Verif.Obj.C147_tr_solvers",
    "Verif.Obj.C147_tr_depends_on_the_constant",
    "Verif.Obj.C147_relative_change_depends_on_the_constant"
   ],
   "note": "False in the code: the trust-region acceptance test |f1-f2|/(|f1|+1) < sqrt(eps) accepts steps with a poor ratio once the constant is large, and SM_FUN_REL divides by |f|; both negations are proved with runs. The trust-region solvers are invariant as long as that rounding test gives the same answers."
  },
  {
   "property": "C148",
   "status": "proved",
   "theorems": [
    "Verif.Obj.C148_armijo",
    "Verif.Obj.C148_armijo_ends",
    "Verif.Obj.C148_armijo_step",
    "Verif.Obj.C148_strong_wolfe",
    "Verif.Obj.C148_strong_wolfe_max",
    "Verif.Obj.C148_strong_wolfe_ends",
    "Verif.Obj.C148_weak_wolfe",
    "Verif.Obj.C148_run",
    "Verif.Obj.C148_monotone",
    "Verif.Obj.C148_strong_wolfe_monotone",
    "Verif.Obj.C148_failed_search_increases"
   ],
   "note": "Obtained by a refinement: in exact arithmetic the searches on the members of the object do step by step what the one-dimensional searches of C14, C15 and C17 do, with the interpolation formulas of the code (armijo_refines, swSearch_refines, wSearch_refines). Strong Wolfe assumes cost values below the greatest machine number, which the code uses as initial fpre. The exception for the last value is needed: C148_failed_search_increases is a run that ends with the status for the least step and records a value far above all others. The weak Wolfe search keeps the gaps of C17."
  },
  {
   "property": "C149",
   "status": "proved",
   "theorems": [
    "Verif.Obj.C149_trial",
    "Verif.Obj.C149_trial_length",
    "Verif.Obj.C149_run",
    "Verif.Obj.C149_converges"
   ],
   "note": "Obtained by a refinement: the inner iteration, the ratio, the radius rule, the acceptance test, the stopping tests and the recording on the members of the object do step by step what the algorithm of C19-C21 and C101 does (tcg_refines, radius_refines, accepts_refines, trLoop_refines, trRun_refines). Assumes Min_Inner_Iter = 0 and Min_Iteration = 0 and a run that stops before the gradient vanishes or the accuracy branch becomes active (Guarded); C149_converges derives this from the stopping test. A user-supplied stopping test and useRand are not covered."
  },
  {
   "property": "C150",
   "status": "proved",
   "theorems": [
    "Verif.Obj.C150_pair",
    "Verif.Obj.C150_choice",
    "Verif.Obj.C150_memory",
    "Verif.Obj.C150_memory_repaired",
    "Verif.Obj.C150_memory_positive",
    "Verif.Obj.C150_run",
    "Verif.Obj.C150_armijo",
    "Verif.Obj.C150_strong_wolfe",
    "Verif.Obj.C150_decrease",
    "Verif.Obj.C150_positive",
    "Verif.Obj.C150_rules",
    "Verif.Obj.C150_quadratic",
    "Verif.Obj.C150_metric_of_former_point"
   ],
   "note": "Exact arithmetic. Curvature is measured with the metric of the point left, because the code evaluates Metric(x2, ., .) there although both vectors are at the new point; C150_metric_of_former_point: with curvature in [1, 5] in the metric of the new point the first quotient can be negative. The remembered list must start empty or within the bounds (it survives SetProbX). C150_quadratic: the curvature hypothesis holds for quadratic costs on Euclidean spaces. The extrinsic rule LSSM_EXTRBBSTEP is not covered."
  },
  {
   "property": "C151",
   "status": "proved",
   "theorems": [
    "Verif.Obj.C151_members",
    "Verif.Obj.C151_monotone",
    "Verif.Obj.C151_ends",
    "Verif.Obj.C151_converges",
    "Verif.Obj.C151_composite",
    "Verif.Obj.C151_no_direction",
    "Verif.Obj.C151_metric_elsewhere"
   ],
   "note": "Real arithmetic; the subproblem is an oracle that may depend on everything the code passes to it. C151_composite derives the hypotheses of C151_converges from the composite problems of C128. The negative parts of the statement are C151_no_direction (for all problems) and C151_metric_elsewhere (a smooth metric on the half-line)."
  },
  {
   "property": "C152",
   "status": "partial",
   "theorems": [
    "Verif.Obj.C152_members",
    "Verif.Obj.C152_in_bounds",
    "Verif.Obj.C152_search",
    "Verif.Obj.C152_decrease",
    "Verif.Obj.C152_slope",
    "Verif.Obj.C152_monotone",
    "Verif.Obj.C152_reuse",
    "Verif.Obj.C152_arrays",
    "Verif.Obj.C152_radii",
    "Verif.Obj.C152_end",
    "Verif.Obj.C152_reduction_endless",
    "Verif.Obj.C152_stalls",
    "Verif.Obj.C152_uninitialised_length",
    "Verif.Obj.C152_radii_kept",
    "Verif.Obj.C152_radii_matter",
    "Verif.Obj.C152_operator_gone",
    "Verif.Obj.C152_lrbfgssub_second_run",
    "Verif.Obj.C152_one_sample",
    "Verif.Obj.C152_dir_series_short"
   ],
   "note": "Members, bounds, search, slope, descent and the equality of runs after SetProbX (with Eps, Del, the operator and ndir1 restored) are proved for all problems. False in the code: GetSearchDir returns without computing ndir1 when the shortest vector is at most Del, so the stopping test and the reduction of Eps and Del use an old or uninitialised value and a run at a stationary point makes Max_Iteration zero steps (C152_stalls, C152_uninitialised_length); Eps and Del keep the reduced values (C152_radii_matter); a second Run of LRBFGSSub with stored pairs reads pairs never written (C152_lrbfgssub_second_run); SetProbX after Run loses the arrays (C152_arrays counts them); dimension + NumExtraGF = 1 computes no direction; the last entry of dirSeries is never written."
  },
  {
   "property": "C153",
   "status": "partial",
   "theorems": [
    "Verif.Julia.C153_values",
    "Verif.Julia.C153_tmp",
    "Verif.Julia.C153_gradient_length",
    "Verif.Julia.C153_cost_fails",
    "Verif.Julia.C153_hessian_overread",
    "Verif.Julia.C153_in_place"
   ],
   "note": "Values and Tmp are proved for all functions and all sequences. False in the code: the result of the call is not examined, so a cost that throws or returns another type gives undefined behaviour (C153_cost_fails, an equivalence); the length of the Hessian's result is compared with the argument but the copy reads as many entries as the result has (C153_hessian_overread); the data are handed over without a copy, so a function that writes to its argument changes every variable that shares the memory (C153_in_place)."
  },
  {
   "property": "C154",
   "status": "proved",
   "theorems": [
    "Verif.Q2F.C154_defined",
    "Verif.Q2F.C154_nearest",
    "Verif.Q2F.C154_first_order",
    "Verif.Q2F.C154_centre",
    "Verif.Q2F.C154_quotient",
    "Verif.Q2F.C154_balanced",
    "Verif.Q2F.C154_point"
   ],
   "note": "Finding: with fewer than 2r rows the loop over 2r singular values leaves the array. ProjRetraction can be called by a user; Retraction does not use it."
  },
  {
   "property": "C155",
   "status": "partial",
   "theorems": [
    "Verif.Solver.C155_defined",
    "Verif.Solver.C155_verdict",
    "Verif.Solver.C155_never_no",
    "Verif.Solver.C155_newton_useRand",
    "Verif.Solver.C155_covers",
    "Verif.Solver.C155_armijo",
    "Verif.Solver.C155_prox",
    "Verif.Solver.C155_radius",
    "Verif.Solver.C155_radius_gap",
    "Verif.Solver.C155_sub_gap",
    "Verif.Solver.C155_defaults",
    "Verif.Solver.C155_prox_set"
   ],
   "note": "partial: the code violates the statement for enumeration parameters (C155_defined, C155_never_no), useRand of RNewton (C155_newton_useRand), the initial radius (C155_radius_gap), the constants of the subgradient line search (C155_sub_gap) and parameters of the proximal-gradient solvers set by a map (C155_prox_set); the rest is proved. NaN values are not modelled."
  },
  {
   "property": "C156",
   "status": "proved",
   "theorems": [
    "Verif.Obj.C156_cubic",
    "Verif.Obj.C156_cubic_global",
    "Verif.Obj.C156_parabola",
    "Verif.Obj.C156_parabola_range",
    "Verif.Obj.C156_wolfe_first",
    "Verif.Obj.C156_wolfe",
    "Verif.Obj.C156_quadratic"
   ],
   "note": "exact real arithmetic; data for which the interpolating cubic has leading coefficient 0 are excluded for the Armijo search (the code divides by it)."
  },
  {
   "property": "C157",
   "status": "proved",
   "theorems": [
    "Verif.SPCA.C157_weights",
    "Verif.SPCA.C157_blocks",
    "Verif.SPCA.C157_bounds",
    "Verif.SPCA.C157_retraction",
    "Verif.SPCA.C157_polar_second_order",
    "Verif.SPCA.C157_smooth",
    "Verif.SPCA.C157_upper",
    "Verif.SPCA.C157_lower",
    "Verif.SPCA.C157_subproblem",
    "Verif.SPCA.C157_stationary",
    "Verif.SPCA.C157_gains",
    "Verif.SPCA.C157_converges",
    "Verif.SPCA.C157_accuracy",
    "Verif.SPCA.C157_first_order",
    "Verif.SPCA.C157_runs",
    "Verif.SPCA.C157_one_weight",
    "Verif.SPCA.C157_no_weights"
   ],
   "note": "exact real arithmetic; the solver of the subproblem is assumed exact (the code's semismooth Newton method is modelled separately, C72, without convergence); LSPG_ADALIPSCHITZ off (not the default). For lengthW different from np, p and 1 the weight is 0; a problem that does not supply weights makes the code divide by an integer zero (C157_no_weights)."
  },
  {
   "property": "C158",
   "status": "proved",
   "theorems": [
    "Verif.Obj.C158_range",
    "Verif.Obj.C158_raises",
    "Verif.Obj.C158_worse",
    "Verif.Obj.C158_weight_fits",
    "Verif.Obj.C158_solved"
   ],
   "note": "exact real arithmetic. C158_raises and C158_worse are negations of 'a ManPG run never raises the cost' for the default parameters; C151 and C157 give the positive statement for fixed weights (LSPG_REGULAR)."
  },
  {
   "property": "C159",
   "status": "proved",
   "theorems": [
    "Verif.Intr.C159_stiefel",
    "Verif.Intr.C159_stiefel_adjoint",
    "Verif.Intr.C159_grassmann",
    "Verif.Intr.C159_grassmann_adjoint",
    "Verif.Intr.C159_spd",
    "Verif.Intr.C159_spd_leak",
    "Verif.Intr.C159_not_tangent",
    "Verif.Intr.C159_no_handle"
   ],
   "note": "exact real arithmetic; Householder QR as in C37 (any Q, R with x = Q R). The fields the function returns for x are not modelled here. Stiefel: Euclidean metric coordinates."
  },
  {
   "property": "C160",
   "status": "proved",
   "theorems": [
    "Verif.Mem.C160_value",
    "Verif.Mem.C160_copy",
    "Verif.Mem.C160_history",
    "Verif.Mem.C160_no_ub",
    "Verif.Mem.C160_indices",
    "Verif.Mem.C160_sub_dir"
   ],
   "note": "One series at a time (the others are among the objects of the rest of the program). The rest of the program does not write to the series itself and does not use raw pointers of its own (those of `HaddRankone` and `Conj` are the subject of another claim). C160_sub_dir is the negation for the subgradient solvers."
  },
  {
   "property": "C161",
   "status": "proved",
   "theorems": [
    "Verif.Obj.C161_full_or_nothing",
    "Verif.Obj.C161_stuck",
    "Verif.Obj.C161_ratio",
    "Verif.Obj.C161_defaults",
    "Verif.Obj.C161_defaults_by_name",
    "Verif.Obj.C161_ends"
   ],
   "note": "Consequence of C29 for whole runs (the map stores the ratio through an integer). Arithmetic exact. The second sentence is C161_stuck, with the full step judged bad for every accuracy of the subproblem and every factor in (0, 1] on the weights."
  },
  {
   "property": "C162",
   "status": "proved",
   "theorems": [
    "Verif.Clock.C162_limit",
    "Verif.Clock.C162_deadline",
    "Verif.Clock.C162_series",
    "Verif.Clock.C162_never_early",
    "Verif.Clock.C162_understates",
    "Verif.Clock.C162_rejected",
    "Verif.Clock.C162_inner",
    "Verif.Clock.C162_subgradient",
    "Verif.Clock.C162_radius",
    "Verif.Clock.C162_wrap",
    "Verif.Clock.C162_not_monotone"
   ],
   "note": "The wall clock does not jump; arithmetic on times exact. C162_limit, C162_deadline and C162_series are for loops in which every pass counts as an iteration (line-search, trust-region, AManPG); ManPG passes whose search fails neither count nor look at the clock. The others hold for all loops. C162_rejected, C162_inner, C162_subgradient, C162_radius, C162_wrap, C162_not_monotone are the negations."
  },
  {
   "property": "C163",
   "status": "proved",
   "theorems": [
    "Verif.HessFlag.C163_run",
    "Verif.HessFlag.C163_indifferent",
    "Verif.HessFlag.C163_program",
    "Verif.HessFlag.C163_newton_only",
    "Verif.HessFlag.C163_reset_first",
    "Verif.HessFlag.C163_interloper_aborts",
    "Verif.HessFlag.C163_interloper_wrong",
    "Verif.HessFlag.C163_carried"
   ],
   "note": "Refinement of programs with the flag and the field to programs without them; the two interloper theorems show what happens when the condition is not met. The documentation does not mention the condition."
  },
  {
   "property": "C164",
   "status": "proved",
   "theorems": [
    "Verif.Quiet.C164_linesearch",
    "Verif.Quiet.C164_stale",
    "Verif.Quiet.C164_trust_region",
    "Verif.Quiet.C164_manpg",
    "Verif.Quiet.C164_amanpg"
   ],
   "note": "The stopping function of the user receives the series; one that looks at them is not covered. The subgradient solvers are not covered."
  },
  {
   "property": "C165",
   "status": "proved",
   "theorems": [
    "Verif.QuadCG.C165_linear_cg",
    "Verif.QuadCG.C165_ends",
    "Verif.QuadCG.C165_method",
    "Verif.QuadCG.C165_orthogonal",
    "Verif.QuadCG.C165_minimiser",
    "Verif.QuadCG.C165_exact_step"
   ],
   "note": "Exact arithmetic; the replacement of a supplied step below the machine epsilon by the initial length is left out."
  },
  {
   "property": "C166",
   "status": "partial",
   "theorems": [
    "Verif.QuadCG.C166_scaled_second_pass",
    "Verif.QuadCG.C166_not_finite",
    "Verif.QuadCG.C166_conjugacy_defect",
    "Verif.QuadCG.C166_perfect_partial"
   ],
   "note": "False in the code: RCG.cpp:142-146 combines -gf2 instead of -Pgf2 with the old direction. Proved: the negation for all multiples of the identity, with a witness on the plane, the defect of conjugacy, and the case of the inverse Hessian."
  },
  {
   "property": "C167",
   "status": "proved",
   "theorems": [
    "Verif.TR.C167_passes",
    "Verif.TR.C167_newton_step"
   ],
   "note": "Exact arithmetic, useRand = false. For Min_Inner_Iter >= 1 see C21."
  },
  {
   "property": "C168",
   "status": "proved",
   "theorems": [
    "Verif.TR.C168_ratio",
    "Verif.TR.C168_never_rejects",
    "Verif.TR.C168_one_iteration"
   ],
   "note": "Exact arithmetic. The statement on whole runs is for runs whose iterates before the current one have nonzero gradient; a run that continues from a zero gradient breaks down (C21)."
  },
  {
   "property": "C169",
   "status": "proved",
   "theorems": [
    "Verif.QuadQN.C169_is_cg",
    "Verif.QuadQN.C169_same_as_rcg",
    "Verif.QuadQN.C169_all_secants",
    "Verif.QuadQN.C169_ends",
    "Verif.QuadQN.C169_inverse",
    "Verif.QuadQN.C169_accepts"
   ],
   "note": "The cautious test is a hypothesis stated on the iterates of the textbook method; C169_accepts gives a sufficient condition and an example with both updates accepted is in the file. What happens when it fails is C170."
  },
  {
   "property": "C170",
   "status": "proved",
   "theorems": [
    "Verif.QuadQN.C170_far_is_steepest",
    "Verif.QuadQN.C170_no_finite_end"
   ],
   "note": "C170_no_finite_end is a concrete run with the default parameters and diag(1, 2) for any machine epsilon."
  },
  {
   "property": "C171",
   "status": "proved",
   "theorems": [
    "Verif.QN.C171_keeps",
    "Verif.QN.C171_each_change_counts",
    "Verif.QN.C171_finitely_many_changes",
    "Verif.QN.C171_learns_hessian",
    "Verif.QN.C171_then_divides_by_zero",
    "Verif.QN.C171_reset_forgets"
   ],
   "note": "The harmful behaviour (division by zero, reset) is part of the statement and is proved. Transport on the Euclidean space is the identity; the updates use the model rtrsr1 of C27."
  },
  {
   "property": "C172",
   "status": "proved",
   "theorems": [
    "Verif.QuadLQN.C172_is_cg",
    "Verif.QuadLQN.C172_same_as_full",
    "Verif.QuadLQN.C172_memory_irrelevant",
    "Verif.QuadLQN.C172_ends",
    "Verif.QuadLQN.C172_no_memory",
    "Verif.QuadLQN.C172_far_is_steepest"
   ],
   "note": "Uses the circular buffer and two-loop recursion of C24 and C25, not an abstract operator."
  },
  {
   "property": "C173",
   "status": "proved",
   "theorems": [
    "Verif.Obj.C173_run",
    "Verif.Obj.C173_inner",
    "Verif.TR.C173_newton"
   ],
   "note": "ZeroLaws holds in exact arithmetic; in floating point it holds up to the sign of zeros."
  },
  {
   "property": "C174",
   "status": "proved",
   "theorems": [
    "Verif.TR.C174_boundary",
    "Verif.TR.C174_inside",
    "Verif.TR.C174_breakdown",
    "Verif.TR.C174_single",
    "Verif.TR.C174_trial",
    "Verif.TR.C174_run_breaks",
    "Verif.TR.C174_run_returns_start",
    "Verif.TR.C174_ratio",
    "Verif.TR.C174_decrease_iff",
    "Verif.TR.C174_never_rejects",
    "Verif.TR.C174_slow"
   ],
   "note": "The breakdown also happens in floating point: numerator and denominator of the step are the same sum, so the step is exactly one and the residual exactly zero."
  },
  {
   "property": "C175",
   "status": "proved",
   "theorems": [
    "Verif.LSR1.C175_first_run",
    "Verif.LSR1.C175_small_dimension",
    "Verif.LSR1.C175_kept_length",
    "Verif.LSR1.C175_second_run",
    "Verif.LSR1.C175_tracks"
   ],
   "note": "The statement describes what the code does, including two defects: Run does not reset Currentlength and beginidx, and the subproblem solver assumes at most as many pairs as entries. A read of an empty vector, of an unwritten array entry or a failed assertion is one outcome, failure. C175_tracks ties the counters to the model with values of C84."
  },
  {
   "property": "C176",
   "status": "proved",
   "theorems": [
    "Verif.QuadCG.C176_optimal",
    "Verif.QuadCG.C176_distinct",
    "Verif.QuadCG.C176_rate",
    "Verif.QuadCG.C176_rbfgs",
    "Verif.QuadCG.C176_lrbfgs",
    "Verif.QuadCG.C176_passes",
    "Verif.QuadCG.C176_steepest",
    "Verif.QuadCG.C176_steepest_sharp"
   ],
   "note": "The run models are those of C165, C169 and C172, with the simplifications stated there; RSD is the direction of C18 in the same loop."
  },
  {
   "property": "C177",
   "status": "proved",
   "theorems": [
    "Verif.TR.C177_trust_region",
    "Verif.TR.C177_newton",
    "Verif.TR.C177_trust_region_preconditioned",
    "Verif.TR.C177_newton_preconditioned",
    "Verif.QuadCG.cg_residual"
   ],
   "note": "Exact arithmetic, useRand = false; the models are those of C21 and C22."
  },
  {
   "property": "C178",
   "status": "proved",
   "theorems": [
    "Verif.TR.C178_pass",
    "Verif.TR.C178_bad_steps",
    "Verif.TR.C178_iterations",
    "Verif.TR.C178_hessian_actions"
   ],
   "note": "Exact arithmetic, useRand = false, Min_Inner_Iter = 0, Acceptence_Rho < 1, Magnified_tau >= 1."
  },
  {
   "property": "C179",
   "status": "proved",
   "theorems": [
    "Verif.Elem.C179_entries",
    "Verif.Elem.C179_first_slice",
    "Verif.Elem.C179_loses",
    "Verif.Elem.C179_involution",
    "Verif.Elem.C179_complex",
    "Verif.Elem.C179_assign"
   ],
   "note": "Extends C10 and C11 from matrices to arrays with three dimensions."
  },
  {
   "property": "C180",
   "status": "proved",
   "theorems": [
    "Verif.Elem.C180_fits",
    "Verif.Elem.C180_read"
   ],
   "note": "The sizes of int, long int, ptrdiff_t, float and double are those of the common 64-bit systems. The general mex driver does not compile in single precision (it reads series as double); the mex entry points of the single tests do not have this line."
  },
  {
   "property": "C181",
   "status": "proved",
   "theorems": [
    "Verif.Stiefel.C181_last_step",
    "Verif.Stiefel.C181_same_step",
    "Verif.Stiefel.C181_missing",
    "Verif.Stiefel.C181_other_step_fails"
   ],
   "note": "Real arithmetic; the result is another object than x; LU factors are represented by the factored matrix, whose solve is exact (C36 shows it is solvable)."
  },
  {
   "property": "C182",
   "status": "proved",
   "theorems": [
    "Verif.Dense.C182_value",
    "Verif.Dense.C182_refused",
    "Verif.Dense.C182_shapes"
   ],
   "note": "The case without operator (Hv null). With assertions switched off (NDEBUG) the refused cases write beyond the end of the sum instead."
  },
  {
   "property": "C183",
   "status": "proved",
   "theorems": [
    "Verif.Stiefel.C183_run",
    "Verif.Stiefel.C183_isometric"
   ],
   "note": "The user's line search and stopping function may retract from x1 and x2; cost function and gradient are assumed not to."
  },
  {
   "property": "C184",
   "status": "proved",
   "theorems": [
    "Verif.Obj.C184_final_line",
    "Verif.Obj.C184_infinite_printed"
   ],
   "note": "Time and counters in the line are not part of the claim."
  },
  {
   "property": "C185",
   "status": "proved",
   "theorems": [
    "Verif.Stiefel.C185_run",
    "Verif.Stiefel.C185_iteration",
    "Verif.Stiefel.C185_tangent",
    "Verif.Stiefel.C185_inner_products"
   ],
   "note": "Euclidean metric, extrinsic vectors. Cost function, gradient and subproblem are assumed not to retract from the iterates. The layout of the store and what the approximation does with it are C84."
  },
  {
   "property": "C186",
   "status": "partial",
   "theorems": [
    "Verif.Stiefel.C186_slope_partial",
    "Verif.Stiefel.C186_wrong_sign"
   ],
   "note": "Proved: with matrices the value is the derivative (C62), and the coordinates at the new point would give it; the negation with the coordinates the code takes. The default parameter set of the Cayley retraction uses matrices."
  }
 ]
}