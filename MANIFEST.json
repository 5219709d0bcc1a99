{
 "claims": [
  {
   "property": "C01",
   "status": "proved",
   "theorems": [
    "POT.Props.C01_emd1d_safe"
   ],
   "note": "for an arbitrary arithmetic (comparison, subtraction uninterpreted)"
  },
  {
   "property": "C02",
   "status": "proved",
   "theorems": [
    "POT.Props.C02_emd1dSorted_coupling",
    "POT.Props.C02_emd1d_coupling"
   ],
   "note": "exact arithmetic"
  },
  {
   "property": "C03",
   "status": "proved",
   "theorems": [
    "POT.Props.C03_emd1dSorted_optimal",
    "POT.Props.C03_emd1d_optimal"
   ],
   "note": "all convex costs of the difference; all four metrics for the API"
  },
  {
   "property": "C04",
   "status": "proved",
   "theorems": [
    "POT.Props.C04_wasserstein1d_optimal",
    "POT.Props.C04_wasserstein1d_eq_emd2_1d"
   ],
   "note": ""
  },
  {
   "property": "C05",
   "status": "proved",
   "theorems": [
    "POT.Props.C05_pivots_conserve",
    "POT.Props.C05_plan_bounded",
    "POT.Props.C05_marginals_within",
    "POT.Props.C05_optimal_is_coupling"
   ],
   "note": "pivot sequences of the general solver model and the whole of EMD_wrap without warm start; exact coupling needs equal masses and costs in the range CostRange"
  },
  {
   "property": "C06",
   "status": "proved",
   "theorems": [
    "POT.Props.C06_optimal_and_certified",
    "POT.Props.C06_optimal_exact"
   ],
   "note": "up to the pivot tolerance eps (explicit bound), exactly for eps = 0; costs in CostRange"
  },
  {
   "property": "C07",
   "status": "partial",
   "theorems": [
    "POT.Props.C07_never_infeasible_partial",
    "POT.Props.C07_solves",
    "POT.Props.C07_negative_cost_refuted"
   ],
   "note": "proved when costs are nonnegative or CostRange holds; refuted for negative costs (false INFEASIBLE)"
  },
  {
   "property": "C08",
   "status": "proved",
   "theorems": [
    "POT.Props.C08_tree_arrays",
    "POT.Props.C08_pivot_terminates"
   ],
   "note": "all reachable states; without warm start"
  },
  {
   "property": "C09",
   "status": "proved",
   "theorems": [
    "POT.Props.C09_no_cycling",
    "POT.Props.C09_emd_terminates"
   ],
   "note": "any choice of entering arcs"
  },
  {
   "property": "C10",
   "status": "proved",
   "theorems": [
    "POT.Props.C10_none_missed",
    "POT.Props.C10_found_violates"
   ],
   "note": "all block sizes and positions"
  },
  {
   "property": "C11",
   "status": "proved",
   "theorems": [
    "POT.Props.C11_arc_bijection",
    "POT.Props.C11_out_arcs",
    "POT.Props.C11_in_arcs",
    "POT.Props.C11_all_arcs",
    "POT.Props.C11_costs_match",
    "POT.Props.C11_plan_written"
   ],
   "note": ""
  },
  {
   "property": "C12",
   "status": "proved",
   "theorems": [
    "POT.Props.C12_mixing_permutes",
    "POT.Props.C12_closed_form",
    "POT.Props.C12_getArcID",
    "POT.Props.C12_arcId_bijective"
   ],
   "note": ""
  },
  {
   "property": "C13",
   "status": "proved",
   "theorems": [
    "POT.Props.C13_packed_is_array",
    "POT.Props.C13_in_bounds",
    "POT.Props.C13_fill"
   ],
   "note": ""
  },
  {
   "property": "C14",
   "status": "proved",
   "theorems": [
    "POT.Props.C14_endpoints",
    "POT.Props.C14_arc",
    "POT.Props.C14_out_arcs",
    "POT.Props.C14_in_arcs"
   ],
   "note": "for every result the unstable sort may give"
  },
  {
   "property": "C15",
   "status": "proved",
   "theorems": [
    "POT.Props.C15_inflate_coupling",
    "POT.Props.C15_inflate_cost",
    "POT.Props.C15_inflate_optimal"
   ],
   "note": ""
  },
  {
   "property": "C16",
   "status": "proved",
   "theorems": [
    "POT.Props.C16_center_sums",
    "POT.Props.C16_center_value",
    "POT.Props.C16_center_balanced"
   ],
   "note": ""
  },
  {
   "property": "C17",
   "status": "proved",
   "theorems": [
    "POT.Props.C17_repair_feasible",
    "POT.Props.C17_repair_value",
    "POT.Props.C17_repair_conservative",
    "POT.Props.C17_emd_certificate"
   ],
   "note": ""
  },
  {
   "property": "C18",
   "status": "proved",
   "theorems": [
    "POT.Props.C18_emd2_subgradient",
    "POT.Props.C18_emd2_grad_centred",
    "POT.Props.C18_emd2_supergradient",
    "POT.Props.C18_mass_change_counterexample"
   ],
   "note": "for weight changes that keep the total mass; the counterexample shows the restriction is needed"
  },
  {
   "property": "C19",
   "status": "proved",
   "theorems": [
    "POT.Props.C19_proj_simplex",
    "POT.Props.C19_fixed",
    "POT.Props.C19_columns"
   ],
   "note": "unique nearest point of the simplex for all vectors, z>0; per column"
  },
  {
   "property": "C20",
   "status": "partial",
   "theorems": [
    "POT.Props.C20_sparse_projection_partial",
    "POT.Props.C20_max_nz_too_large",
    "POT.Props.C20_full"
   ],
   "note": "proved for 1<=max_nz<=n and any argsort tie break; for max_nz>n the code raises although the doc promises proj_simplex (proved)"
  },
  {
   "property": "C21",
   "status": "proved",
   "theorems": [
    "POT.Props.C21_sqeuclidean",
    "POT.Props.C21_sqeuclidean_same",
    "POT.Props.C21_metric",
    "POT.Props.C21_euclidean",
    "POT.Props.C21_euclidean_same",
    "POT.Props.C21_batch",
    "POT.Props.C21_cityblock",
    "POT.Props.C21_minkowski"
   ],
   "note": "exact values of dist for sqeuclidean, euclidean, cityblock, minkowski and the batched variant"
  },
  {
   "property": "C22",
   "status": "proved",
   "theorems": [
    "POT.Props.C22_reduce_all",
    "POT.Props.C22_reduce_axis",
    "POT.Props.C22_reduce_axis_concat",
    "POT.Props.C22_sparse_ot_dist",
    "POT.Props.C22_lazy_marginals",
    "POT.Props.lazy_is_transposed_log"
   ],
   "note": "all batch sizes >= 1"
  },
  {
   "property": "C23",
   "status": "partial",
   "theorems": [
    "POT.Props.C23_wrong_weights",
    "POT.Props.C23_default_weights_raise",
    "POT.Props.C23_identity_partial",
    "POT.Props.C23_default_partial"
   ],
   "note": "false of the code (weights are read at sample indices); proved where pair k starts at sample k, and for default weights with small indices"
  },
  {
   "property": "C24",
   "status": "proved",
   "theorems": [
    "POT.Props.C24_label_normalization",
    "POT.Props.C24_labels_to_masks",
    "POT.Props.C24_masks_faithful",
    "POT.Props.C24_get_parameter_pair",
    "POT.Props.C24_check_number_threads"
   ],
   "note": ""
  },
  {
   "property": "C25",
   "status": "proved",
   "theorems": [
    "POT.Props.C25_sinkhorn_knopp",
    "POT.Props.C25_every_iterate",
    "POT.Props.C25_zero_weights_on_both_sides"
   ],
   "note": "also weights with zeros on one side; zero weights on both sides make the first iteration fail (finding)"
  },
  {
   "property": "C26",
   "status": "proved",
   "theorems": [
    "POT.Props.C26_unique_entropic_optimum",
    "POT.Props.C26_dual_optimum",
    "POT.Props.C26_kl_regularisation",
    "POT.Props.C26_returned_plan_own_marginals"
   ],
   "note": ""
  },
  {
   "property": "C27",
   "status": "proved",
   "theorems": [
    "POT.Props.C27_monotone",
    "POT.Props.C27_terminates",
    "POT.Props.C27_iteration_bound",
    "POT.Props.C27_converged_error",
    "POT.Props.C27_converges",
    "POT.Props.C27_accuracy"
   ],
   "note": "with an explicit iteration bound and an accuracy bound for the returned plan"
  },
  {
   "property": "C28",
   "status": "proved",
   "theorems": [
    "POT.Props.C28_log_equals_knopp",
    "POT.Props.C28_log_guarantees",
    "POT.Props.C28_batch",
    "POT.Props.C28_batch_independent"
   ],
   "note": "positive weights; histogram and kernel of any size"
  },
  {
   "property": "C29",
   "status": "partial",
   "theorems": [
    "POT.Props.C29_absorption_neutral",
    "POT.Props.C29_returned_plan_partial",
    "POT.Props.C29_converged",
    "POT.Props.C29_returned_plan_refuted"
   ],
   "note": "iterates: proved; the returned plan is the plain one only if the last update did not absorb (refuted otherwise). Multi-histogram branch not modelled"
  },
  {
   "property": "C30",
   "status": "proved",
   "theorems": [
    "POT.Props.C30_violations_exact",
    "POT.Props.C30_terminates",
    "POT.Props.C30_converged"
   ],
   "note": "for any argmax tie breaking"
  },
  {
   "property": "C31",
   "status": "proved",
   "theorems": [
    "POT.Props.C31_schedule",
    "POT.Props.C31_final_regularisation"
   ],
   "note": ""
  },
  {
   "property": "C32",
   "status": "partial",
   "theorems": [
    "POT.Props.C32_knopp_partial",
    "POT.Props.C32_joint_stopping_refuted",
    "POT.Props.C32_log_several",
    "POT.Props.C32_log_single_histogram_fails"
   ],
   "note": "same iterates and losses as separate runs for a common iteration count; the separate runs may stop earlier (refuted); sinkhorn_log with one column raises (refuted)"
  },
  {
   "property": "C33",
   "status": "partial",
   "theorems": [
    "POT.Props.C33_last_step_partial",
    "POT.Props.C33_one_iteration_fails",
    "POT.Props.C33_row_marginal_refuted",
    "POT.Props.C33_batch_marginals"
   ],
   "note": "rows of the last_step plan are not exact (refuted), columns are; the batch solver has exact column marginals"
  },
  {
   "property": "C34",
   "status": "proved",
   "theorems": [
    "POT.Props.C34_linesearch_quad"
   ],
   "note": ""
  },
  {
   "property": "C35",
   "status": "proved",
   "theorems": [
    "POT.Props.C35_cg_iterates_couplings",
    "POT.Props.C35_cg_returns_coupling",
    "POT.Props.C35_default_start",
    "POT.Props.C35_default_start_counterexample"
   ],
   "note": "at most max(1,numItermax) iterations; the default start is a coupling only for unit masses"
  },
  {
   "property": "C36",
   "status": "proved",
   "theorems": [
    "POT.Props.C36_cg_armijo",
    "POT.Props.C36_fgw",
    "POT.Props.C36_semirelaxed",
    "POT.Props.C36_partial",
    "POT.Props.C36_fgw_returned",
    "POT.Props.C36_semirelaxed_returned",
    "POT.Props.C36_partial_returned"
   ],
   "note": "balanced, semi-relaxed, partial (fused) GW with exact line search; cg with Armijo under the contract of SciPy's search"
  },
  {
   "property": "C37",
   "status": "proved",
   "theorems": [
    "POT.Props.C37_semirelaxed_direction",
    "POT.Props.C37_semirelaxed_direction_exact"
   ],
   "note": "up to the 1e-15 tie margin of the code, exact without it"
  },
  {
   "property": "C38",
   "status": "proved",
   "theorems": [
    "POT.Props.C38_gwloss_square",
    "POT.Props.C38_gwloss_kl",
    "POT.Props.C38_klLoss_eq",
    "POT.Props.C38_srloss_square",
    "POT.Props.C38_pgloss_square"
   ],
   "note": ""
  },
  {
   "property": "C39",
   "status": "proved",
   "theorems": [
    "POT.Props.C39_gradient",
    "POT.Props.C39_gradient_semirelaxed",
    "POT.Props.C39_gradient_partial",
    "POT.Props.C39_linesearch",
    "POT.Props.C39_linesearch_semirelaxed",
    "POT.Props.C39_linesearch_partial"
   ],
   "note": ""
  },
  {
   "property": "C40",
   "status": "proved",
   "theorems": [
    "POT.Props.C40_isometry",
    "POT.Props.C40_nonneg",
    "POT.Props.C40_zero_matches"
   ],
   "note": ""
  },
  {
   "property": "C41",
   "status": "proved",
   "theorems": [
    "POT.Props.C41_structure_square_excess",
    "POT.Props.C41_structure_square",
    "POT.Props.C41_shared_marginal",
    "POT.Props.C41_structure_square_source",
    "POT.Props.C41_structure_kl",
    "POT.Props.C41_structure_kl_source",
    "POT.Props.C41_feature_excess",
    "POT.Props.C41_feature",
    "POT.Props.C41_feature_shared"
   ],
   "note": ""
  },
  {
   "property": "C42",
   "status": "proved",
   "theorems": [
    "POT.Props.C42_div_between_product",
    "POT.Props.C42_div_to_product"
   ],
   "note": "KL and L2"
  },
  {
   "property": "C43",
   "status": "partial",
   "theorems": [
    "POT.Props.C43_total_cost_joint",
    "POT.Props.C43_total_cost_independent_partial",
    "POT.Props.C43_total_cost_counterexample"
   ],
   "note": "false of the code for independent regularisation (arguments exchanged); joint case and the case of plans with exact marginals proved"
  },
  {
   "property": "C44",
   "status": "proved",
   "theorems": [
    "POT.Props.C44_partial_wasserstein",
    "POT.Props.C44_exact",
    "POT.Props.C44_rejects",
    "POT.Props.C44_negative_costs_refuted"
   ],
   "note": "non-negative costs, not identically zero; tolerance of the inner solver explicit, exact for eps=0; counterexample for negative costs"
  },
  {
   "property": "C45",
   "status": "proved",
   "theorems": [
    "POT.Props.C45_partial_lagrange",
    "POT.Props.C45_negative_costs_refuted"
   ],
   "note": "non-negative costs; counterexample for negative costs"
  },
  {
   "property": "C46",
   "status": "proved",
   "theorems": [
    "POT.Props.C46_mass",
    "POT.Props.C46_converges",
    "POT.Props.C46_log",
    "POT.Props.C46_call"
   ],
   "note": "positive weights and mass; convergence of Dykstra's iterations to the unique optimum"
  },
  {
   "property": "C47",
   "status": "proved",
   "theorems": [
    "POT.Props.C47_partial_wasserstein_1d",
    "POT.Props.C47_partial_wasserstein_1d_plans",
    "POT.Props.C47_padding_refuted"
   ],
   "note": "all samples (ties and any argsort order included), all p in N, all requests up to min(n,m), every prefix; the padding beyond min(n,m) is refuted as a defect"
  },
  {
   "property": "C48",
   "status": "proved",
   "theorems": [
    "POT.Props.C48_kl_monotone",
    "POT.Props.C48_kl_rate",
    "POT.Props.C48_kl_linear",
    "POT.Props.C48_kl_call",
    "POT.Props.C48_kl_call_unregularised",
    "POT.Props.C48_l2_monotone",
    "POT.Props.C48_l2_rate",
    "POT.Props.C48_l2_call",
    "POT.Props.C48_l2_plan",
    "POT.Props.C48_total_cost"
   ],
   "note": "kl rates and calls with the guard 1e-16 taken as 0 (its effect per iteration is bounded in C48_kl_monotone); l2 with the guard"
  },
  {
   "property": "C49",
   "status": "proved",
   "theorems": [
    "POT.Props.C49_fixed_point_optimal",
    "POT.Props.C49_geometric",
    "POT.Props.C49_converges",
    "POT.Props.C49_call",
    "POT.Props.C49_resume",
    "POT.Props.C49_hists",
    "POT.Props.C49_total_cost_refuted",
    "POT.Props.C49_total_cost_positive",
    "POT.Props.C49_zero_weight",
    "POT.Props.C49_zero_weight_refuted"
   ],
   "note": "Proved for positive weights. Two sentences are false of the code and refuted: the reported total_cost omits the mass terms (it is 0 at every exact solution with finite parameters), and a zero weight with the default reference sends the first iteration to the error branch, whose plan is not optimal. With several histograms the default reg_type kl is not used (reference one)."
  },
  {
   "property": "C50",
   "status": "proved",
   "theorems": [
    "POT.Props.C50_update",
    "POT.Props.C50_absorption",
    "POT.Props.C50_call",
    "POT.Props.C50_first_test_refuted",
    "POT.Props.C50_absorption_refuted"
   ],
   "note": "one histogram, the guard 1e-16 in the divisions taken as 0; exact effect of absorbing iterations; two defects with witnesses"
  },
  {
   "property": "C51",
   "status": "proved",
   "theorems": [
    "POT.Props.C51_rescale",
    "POT.Props.C51_marginals",
    "POT.Props.C51_costs",
    "POT.Props.C51_dual_feasible",
    "POT.Props.C51_converges",
    "POT.Props.C51_ties_refuted"
   ],
   "note": "one batch entry, require_sort=True (False raises a NameError). Feasibility and convergence assume that no interior cumulative weights of the marginals of the iterates coincide; C51_ties_refuted shows it is needed."
  },
  {
   "property": "C52",
   "status": "proved",
   "theorems": [
    "POT.Props.C52_conjugate",
    "POT.Props.C52_weak_duality",
    "POT.Props.C52_plan_value",
    "POT.Props.C52_gradient_is_marginal_error",
    "POT.Props.C52_plan_optimal",
    "POT.Props.C52_gap",
    "POT.Props.C52_stationary",
    "POT.Props.C52_supergradient",
    "POT.Props.C52_gradient",
    "POT.Props.C52_maximiser"
   ],
   "note": "scipy's optimiser is not modelled: the theorems hold at every point it may stop at. Sparse case: optimality but not uniqueness, supergradients but not derivatives (neither holds at ties)."
  },
  {
   "property": "C53",
   "status": "proved",
   "theorems": [
    "POT.Props.C53_target_marginal",
    "POT.Props.C53_weak_duality",
    "POT.Props.C53_plan_value",
    "POT.Props.C53_plan_optimal",
    "POT.Props.C53_stationary",
    "POT.Props.C53_supergradient",
    "POT.Props.C53_gradient",
    "POT.Props.C53_maximiser",
    "POT.Props.C53_projection_simplex"
   ],
   "note": "b > 0 (the code divides by b)"
  },
  {
   "property": "C54",
   "status": "proved",
   "theorems": [
    "POT.Props.C54_row_sums",
    "POT.Props.C54_plan_optimal",
    "POT.Props.C54_c_transform",
    "POT.Props.C54_gradient",
    "POT.Props.C54_weak_duality",
    "POT.Props.C54_maximiser_iff",
    "POT.Props.C54_maximiser_exists",
    "POT.Props.C54_sag",
    "POT.Props.C54_asgd_mean",
    "POT.Props.C54_asgd_converges",
    "POT.Props.C54_asgd_limit",
    "POT.Props.C54_asgd_weights_refuted"
   ],
   "note": "Convergence of SAG itself is not claimed; ASGD with non-uniform source weights is refuted (finding 40)."
  },
  {
   "property": "C55",
   "status": "partial",
   "theorems": [
    "POT.Props.C55_wasserstein1_circle_partial",
    "POT.Props.C55_wasserstein1_circle_symm_partial",
    "POT.Props.C55_wasserstein1_circle_refuted"
   ],
   "note": "Exact optimality when some sample lies at the origin of the circle; otherwise the code leaves out the first segment and the claim is refuted by an example (not symmetric)."
  },
  {
   "property": "C56",
   "status": "partial",
   "theorems": [
    "POT.Props.C56_semidiscrete_partial",
    "POT.Props.C56_semidiscrete_order_uniform",
    "POT.Props.C56_semidiscrete_refuted"
   ],
   "note": "Least transport cost over all semi-discrete plans for sorted samples or equal weights; refuted for unsorted samples with unequal weights (the weights are not sorted)."
  },
  {
   "property": "C57",
   "status": "partial",
   "theorems": [
    "POT.Props.C57_embedding_value_partial",
    "POT.Props.C57_embedding_next_atom_partial",
    "POT.Props.C57_embedding_dirac",
    "POT.Props.C57_linear_circular_ot_semimetric",
    "POT.Props.C57_embedding_order",
    "POT.Props.C57_embedding_refuted"
   ],
   "note": "The code uses the atom after the quantile (index shifted by the padded cdf): exact description proved, documented formula refuted; the semimetric properties and order independence of linear_circular_ot proved."
  },
  {
   "property": "C58",
   "status": "proved",
   "theorems": [
    "POT.Props.C58_terminates",
    "POT.Props.C58_optimal",
    "POT.Props.C58_dual_feasible",
    "POT.Props.C58_renormalize",
    "POT.Props.C58_dual_refuted"
   ],
   "note": "Dual feasibility holds when the last bins are positive; finding 41 otherwise."
  },
  {
   "property": "C59",
   "status": "proved",
   "theorems": [
    "POT.Props.C59_gradC1",
    "POT.Props.C59_gradC2"
   ],
   "note": ""
  },
  {
   "property": "C60",
   "status": "partial",
   "theorems": [
    "POT.Props.C60_sample_block_joint",
    "POT.Props.C60_feature_block_joint",
    "POT.Props.C60_sample_block_descent",
    "POT.Props.C60_l2_counterexample",
    "POT.Props.C60_independent_counterexample"
   ],
   "note": "KL + joint proved; false of the code for L2 and for independent regularisation (witnesses)"
  },
  {
   "property": "C61",
   "status": "partial",
   "theorems": [
    "POT.Props.C61_rescale_mass_partial",
    "POT.Props.C61_rescale_counterexample"
   ],
   "note": "documented equality of masses is false of the code; exact value of the resulting mass proved"
  },
  {
   "property": "C62",
   "status": "proved",
   "theorems": [
    "POT.Props.C62_emd_end_to_end",
    "POT.Props.C62_emd_exact"
   ],
   "note": "Exact arithmetic; single-threaded solver without warm start; any initial pivots. Costs are assumed nonnegative (see C07 for negative costs)."
  },
  {
   "property": "C63",
   "status": "proved",
   "theorems": [
    "POT.Props.C63_sparse_end_to_end",
    "POT.Props.C63_infeasible_is_infeasible"
   ],
   "note": "Exact arithmetic; no warm start. Nonnegative costs; eps*2(C+1)(n1+n2)<1."
  },
  {
   "property": "C64",
   "status": "proved",
   "theorems": [
    "POT.Props.C64_call",
    "POT.Props.C64_row_infinite",
    "POT.Props.C64_balanced",
    "POT.Props.C64_unequal_refuted"
   ],
   "note": "one histogram; the cases in which the code is right, and the two in which it is not"
  },
  {
   "property": "C65",
   "status": "proved",
   "theorems": [
    "POT.Props.C65_value",
    "POT.Props.C65_optimal",
    "POT.Props.C65_ties_refuted"
   ],
   "note": "back-propagation through sort/cumsum modelled as the linear map it applies; feasibility without ties, refuted with ties"
  },
  {
   "property": "C66",
   "status": "proved",
   "theorems": [
    "POT.Props.C66_entropic_duality",
    "POT.Props.C66_entropic_plan",
    "POT.Props.C66_entropic_gradient",
    "POT.Props.C66_quadratic_duality",
    "POT.Props.C66_quadratic_plan",
    "POT.Props.C66_quadratic_gradient",
    "POT.Props.C66_batch_gradient",
    "POT.Props.C66_sgd_step"
   ],
   "note": "Convergence of the dual SGD is not claimed."
  },
  {
   "property": "C67",
   "status": "proved",
   "theorems": [
    "POT.Props.C67_binary_search_circle",
    "POT.Props.C67_binary_search_circle_stable",
    "POT.Props.C67_binary_search_circle_symm"
   ],
   "note": "exact arithmetic; one batch entry (all unfinished entries of a batch have the same interval width, so the batch loop acts entrywise)"
  },
  {
   "property": "C68",
   "status": "proved",
   "theorems": [
    "POT.Props.C68_barycenter_lp",
    "POT.Props.C68_barycenter_lp_complete",
    "POT.Props.C68_unequal_masses_accepted"
   ],
   "note": "linprog is a parameter; unequal masses are accepted silently"
  },
  {
   "property": "C69",
   "status": "proved",
   "theorems": [
    "POT.Props.C69_free_support_barycenter"
   ],
   "note": ""
  },
  {
   "property": "C70",
   "status": "partial",
   "theorems": [
    "POT.Props.C70_generalized_free_support_partial",
    "POT.Props.C70_generalized_free_support_refuted"
   ],
   "note": "holds for uniform coefficients and start Y_init @ B.T; false otherwise"
  },
  {
   "property": "C71",
   "status": "proved",
   "theorems": [
    "POT.Props.C71_gluing",
    "POT.Props.C71_gluing_size",
    "POT.Props.C71_true_fixed_point",
    "POT.Props.C71_l2_projection",
    "POT.Props.C71_clean"
   ],
   "note": "emd and ground_bary are parameters assumed exact"
  },
  {
   "property": "C72",
   "status": "proved",
   "theorems": [
    "POT.Props.C72_coot",
    "POT.Props.C72_coot_default_start",
    "POT.Props.C72_coot_value",
    "POT.Props.C72_coot_fixed_point",
    "POT.Props.C72_coot_gradients",
    "POT.Props.C72_inner_emd",
    "POT.Props.C72_inner_sinkhorn",
    "POT.Props.C72_coot_stale_value_refuted"
   ],
   "note": "inner solvers are assumed exact; for eval_bcd > 1 the returned value can be stale (refuted separately)"
  },
  {
   "property": "C73",
   "status": "proved",
   "theorems": [
    "POT.Props.C73_weak_gradient",
    "POT.Props.C73_weak_gap",
    "POT.Props.C73_weak_optimal_iff",
    "POT.Props.C73_weak_run",
    "POT.Props.C73_weak_le_quadratic",
    "POT.Props.C73_weak_default_start"
   ],
   "note": ""
  },
  {
   "property": "C74",
   "status": "proved",
   "theorems": [
    "POT.Props.C74_factored",
    "POT.Props.C74_factored_stops",
    "POT.Props.C74_lazy_plan",
    "POT.Props.C74_logged_costs"
   ],
   "note": ""
  },
  {
   "property": "C75",
   "status": "proved",
   "theorems": [
    "POT.Props.C75_sliced_value",
    "POT.Props.C75_max_sliced_value",
    "POT.Props.C75_sliced_ties",
    "POT.Props.C75_sliced_symm",
    "POT.Props.C75_sliced_self",
    "POT.Props.C75_sliced_nonneg",
    "POT.Props.C75_sliced_triangle",
    "POT.Props.C75_sliced_le_max_le_wasserstein",
    "POT.Props.C75_sliced_translation",
    "POT.Props.C75_random_projections"
   ],
   "note": "Real arithmetic; scaler=None; the random draw is a parameter."
  },
  {
   "property": "C76",
   "status": "partial",
   "theorems": [
    "POT.Props.C76_sliced_plans",
    "POT.Props.C76_min_sliced",
    "POT.Props.C76_cost_partial",
    "POT.Props.C76_expected",
    "POT.Props.C76_expected_cost_partial",
    "POT.Props.C76_expected_cost_uniform",
    "POT.Props.C76_batch_size",
    "POT.Props.C76_metrics",
    "POT.Props.C76_min_refuted",
    "POT.Props.C76_cost_refuted",
    "POT.Props.C76_mass_refuted",
    "POT.Props.C76_expected_refuted"
   ],
   "note": "Couplings and optimality on the line hold for all weights. The cost claim is false of the code outside uniform probability weights on samples of equal size (sparse_ot_dist indexes the weights by source index); counterexamples proved. n_projections given with projections breaks the mass (refuted)."
  },
  {
   "property": "C77",
   "status": "proved",
   "theorems": [
    "POT.Props.C77_mapping",
    "POT.Props.C77_mapping_optimal",
    "POT.Props.C77_empirical_mapping"
   ],
   "note": "matrix square roots come from any valid eigendecomposition; exact real arithmetic"
  },
  {
   "property": "C78",
   "status": "partial",
   "theorems": [
    "POT.Props.C78_bures",
    "POT.Props.C78_bures_attained",
    "POT.Props.C78_bures_metric",
    "POT.Props.C78_distance",
    "POT.Props.C78_distance_metric",
    "POT.Props.C78_empirical_lower_bound",
    "POT.Props.C78_paired_refuted"
   ],
   "note": "everything except the paired claim is proved; with paired=True and a single target the mean term of an n x 1 batch is broadcast to n x n, so the claim is false of the code (C78_paired_refuted)"
  },
  {
   "property": "C79",
   "status": "proved",
   "theorems": [
    "POT.Props.C79_fixed_point_optimal",
    "POT.Props.C79_fixpoint",
    "POT.Props.C79_gd_step",
    "POT.Props.C79_gradient_descent",
    "POT.Props.C79_gd_rate",
    "POT.Props.C79_gradient",
    "POT.Props.C79_stochastic_pd",
    "POT.Props.C79_barycenter"
   ],
   "note": "num_iter >= 1; random batches are arbitrary sequences"
  },
  {
   "property": "C80",
   "status": "partial",
   "theorems": [
    "POT.Props.C80_value",
    "POT.Props.C80_mapping",
    "POT.Props.C80_skewness_refuted"
   ],
   "note": "value and mapping proved (mapping to a space of at most the source dimension); with sign_eigs='skewness' a zero third moment gives sign 0 and the covariance is not matched, so that claim is false of the code (C80_skewness_refuted)"
  },
  {
   "property": "C81",
   "status": "proved",
   "theorems": [
    "POT.Props.C81_density",
    "POT.Props.C81_density_transport",
    "POT.Props.C81_mixture_density",
    "POT.Props.C81_cost",
    "POT.Props.C81_plan_loss",
    "POT.Props.C81_metric",
    "POT.Props.C81_zero",
    "POT.Props.C81_moment_bound",
    "POT.Props.C81_bary_map",
    "POT.Props.C81_rand_map"
   ],
   "note": "emd enters as a solver that returns an optimal plan whenever one exists; the eigen-decomposition behind sqrtm is a parameter satisfying its defining equations; gmm_ot_plan_density is not modelled."
  },
  {
   "property": "C82",
   "status": "partial",
   "theorems": [
    "POT.Props.C82_euclidean_descent",
    "POT.Props.C82_bures_descent",
    "POT.Props.C82_euclidean_refuted"
   ],
   "note": "False for method 'euclidean' with non-uniform w_bar (C82_euclidean_refuted). Descent is proved for 'euclidean' with uniform w_bar and for 'bures' with every positive w_bar, when the plans are assignments; splitting plans with 'euclidean' are not covered (the averaged covariance is then not a Bures projection). The inner barycenter is assumed to be the one of C79."
  },
  {
   "property": "C83",
   "status": "partial",
   "theorems": [
    "POT.Props.C83_sinkhorn_converges",
    "POT.Props.C83_sinkhorn_stops",
    "POT.Props.C83_sinkhorn_accuracy",
    "POT.Props.C83_sinkhorn_tilted",
    "POT.Props.C83_sinkhorn_weights_refuted",
    "POT.Props.C83_log_converges",
    "POT.Props.C83_log_stops",
    "POT.Props.C83_log_accuracy",
    "POT.Props.C83_stabilized_converges",
    "POT.Props.C83_absorption_refuted"
   ],
   "note": "Proved for sinkhorn with uniform weights, for sinkhorn_log with all positive weights, for sinkhorn_stabilized when nothing is absorbed. False of the code for method sinkhorn with non-uniform weights (its limit is identified by C83_sinkhorn_tilted) and after an absorption; both refuted by counterexamples."
  },
  {
   "property": "C84",
   "status": "proved",
   "theorems": [
    "POT.Props.C84_debiased_limit",
    "POT.Props.C84_debiased_stops",
    "POT.Props.C84_debiased_log_limit"
   ],
   "note": "The limit of the iteration, when it exists, is the debiased barycenter, for the plain and log-domain methods; existence of the limit is a hypothesis (shown to hold for two Dirac masses and for uniform histograms)."
  },
  {
   "property": "C85",
   "status": "partial",
   "theorems": [
    "POT.Props.C85_exact",
    "POT.Props.C85_default_weights",
    "POT.Props.C85_entropic",
    "POT.Props.C85_entropic_potentials",
    "POT.Props.C85_general",
    "POT.Props.C85_l2",
    "POT.Props.C85_unbalanced_exact_kl",
    "POT.Props.C85_unbalanced_exact_l2",
    "POT.Props.C85_unbalanced_kl",
    "POT.Props.C85_not_implemented",
    "POT.Props.C85_potentials_refuted",
    "POT.Props.C85_reference_refuted",
    "POT.Props.C85_l2_refuted",
    "POT.Props.C85_unbalanced_value_refuted"
   ],
   "note": "Proved for the exact, entropic, general and unbalanced branches. Four parts of the claim are false of the code and refuted: the entropic potentials are not multiplied by reg, the parameter c is ignored in the balanced branch, value of the L2 branch is not the minimum, value of the regularised unbalanced branch is not the objective. The branches that call L-BFGS-B on the unbalanced problem are outside the model (external optimiser)."
  },
  {
   "property": "C86",
   "status": "partial",
   "theorems": [
    "POT.Props.C86_entropy",
    "POT.Props.C86_entropy_gradient",
    "POT.Props.C86_kl_refuted"
   ],
   "note": "True and proved for reg_type='entropy', including that the cost gradient is a derivative. For the default reg_type='KL' the gradients with respect to the weights are wrong (C86_kl_refuted)."
  },
  {
   "property": "C87",
   "status": "proved",
   "theorems": [
    "POT.Props.C87_feasible",
    "POT.Props.C87_value",
    "POT.Props.C87_curvature_range",
    "POT.Props.C87_curvature_square",
    "POT.Props.C87_curvature_euclidean",
    "POT.Props.C87_pgd_monotone",
    "POT.Props.C87_pgd_stops",
    "POT.Props.C87_pgd_stationary",
    "POT.Props.C87_ppa_monotone",
    "POT.Props.C87_ppa_stops",
    "POT.Props.C87_small_epsilon_refuted",
    "POT.Props.C87_argmin_refuted"
   ],
   "note": "Proved under the stated bound on epsilon, for exact inner solves. Two refutations mark the limits: below the bound the iteration can cycle for ever with a larger objective than at the start, and the documented argmin is not reached in general. Rounding and inexact inner solves are not modelled."
  },
  {
   "property": "C88",
   "status": "proved",
   "theorems": [
    "POT.Props.C88_feasible",
    "POT.Props.C88_curvature",
    "POT.Props.C88_monotone",
    "POT.Props.C88_stops",
    "POT.Props.C88_small_epsilon_refuted"
   ],
   "note": "Proved under the stated bound on epsilon; for smaller epsilon the cost can increase (refuted by example). String initialisations not modelled: any positive start."
  },
  {
   "property": "C89",
   "status": "partial",
   "theorems": [
    "POT.Props.C89_curvature",
    "POT.Props.C89_mass",
    "POT.Props.C89_feasible",
    "POT.Props.C89_value",
    "POT.Props.C89_monotone",
    "POT.Props.C89_stops",
    "POT.Props.C89_stationary",
    "POT.Props.C89_features_ignored_refuted",
    "POT.Props.C89_fused_refuted",
    "POT.Props.C89_start_refuted"
   ],
   "note": "Everything about entropic_partial_gromov_wasserstein is proved, with an exact solver of the inner problem. The claim about the fused function is false of the code: its plan does not depend on the features (equality proved for the code's own inner solver, all arguments), and it misses the documented minimum. A start that exceeds the marginals is accepted."
  },
  {
   "property": "C90",
   "status": "partial",
   "theorems": [
    "POT.Props.C90_exact",
    "POT.Props.C90_entropic",
    "POT.Props.C90_wasserstein",
    "POT.Props.C90_wasserstein_entropic",
    "POT.Props.C90_not_implemented",
    "POT.Props.C90_mass",
    "POT.Props.C90_default_weights",
    "POT.Props.C90_entropic_descent",
    "POT.Props.C90_reg_ignored",
    "POT.Props.C90_tol_ignored",
    "POT.Props.C90_partial_start_refuted",
    "POT.Props.C90_parts_refuted",
    "POT.Props.C90_reg_refuted"
   ],
   "note": "Proved but for the parts that are false of the code: reg does not reach the fused entropic solvers (C90_reg_refuted), tol does not reach the balanced entropic ones (C90_tol_ignored), the mass of a given start of the exact partial problem is unchecked (C90_partial_start_refuted), value_linear is missing for partial problems without features (C90_parts_refuted)."
  },
  {
   "property": "C91",
   "status": "partial",
   "theorems": [
    "POT.Props.C91_transform",
    "POT.Props.C91_mean",
    "POT.Props.C91_out_of_sample",
    "POT.Props.C91_consistent",
    "POT.Props.C91_inverse",
    "POT.Props.C91_inverse_out_of_sample",
    "POT.Props.C91_assignment",
    "POT.Props.C91_continuous",
    "POT.Props.C91_continuous_inverse",
    "POT.Props.C91_continuous_map",
    "POT.Props.C91_labels",
    "POT.Props.C91_inverse_labels",
    "POT.Props.C91_zero_mass_refuted",
    "POT.Props.C91_duplicates_refuted"
   ],
   "note": "Proved for samples with mass and distinct training samples; both restrictions are necessary: samples without mass are sent to the origin, repeated training samples get the image of the first one outside the training call."
  },
  {
   "property": "C92",
   "status": "partial",
   "theorems": [
    "POT.Props.C92_labels_ignored",
    "POT.Props.C92_no_labels",
    "POT.Props.C92_limit_refuted",
    "POT.Props.C92_negative_refuted",
    "POT.Props.C92_drift_refuted"
   ],
   "note": "The claim is false of the code; proved instead: the labels never influence the cost, except that negative costs become zero, and limit_max drifts."
  },
  {
   "property": "C93",
   "status": "proved",
   "theorems": [
    "POT.Props.C93_feasible",
    "POT.Props.C93_descent"
   ],
   "note": "Inner Sinkhorn solves exact (C25-C27 for how close the inner loop gets)."
  },
  {
   "property": "C94",
   "status": "partial",
   "theorems": [
    "POT.Props.C94_similarities",
    "POT.Props.C94_objective",
    "POT.Props.C94_objective_disp",
    "POT.Props.C94_uniform",
    "POT.Props.C94_gradient",
    "POT.Props.C94_emd_laplace",
    "POT.Props.C94_alpha_refuted"
   ],
   "note": "Everything except the documented weights: the code exchanges alpha and 1-alpha and has an extra factor 1/2; the images are normalised by the number of samples, so the formula with barycentric images holds for uniform weights."
  },
  {
   "property": "C95",
   "status": "partial",
   "theorems": [
    "POT.Props.C95_iterates",
    "POT.Props.C95_gap",
    "POT.Props.C95_group_norm",
    "POT.Props.C95_group_subgrad",
    "POT.Props.C95_group_lasso",
    "POT.Props.C95_gcg_refuted"
   ],
   "note": "The recorded losses and the line search leave out the entropic term, so the method can stop at a plan that is not a minimiser (C95_gcg_refuted); the other parts are proved."
  },
  {
   "property": "C96",
   "status": "partial",
   "theorems": [
    "POT.Props.C96_loss_linear",
    "POT.Props.C96_loss_linear_bias",
    "POT.Props.C96_loss_kernel",
    "POT.Props.C96_loss_kernel_bias",
    "POT.Props.C96_variants",
    "POT.Props.C96_update",
    "POT.Props.C96_global",
    "POT.Props.C96_inner",
    "POT.Props.C96_joint",
    "POT.Props.C96_kernel_bias_refuted"
   ],
   "note": "Proved for both linear versions and the kernel version without bias (the Gaussian kernel is proved positive semidefinite). False of the code for the kernel version with bias: the offset is penalised although documented otherwise (C96_loss_kernel_bias), and with two equal source samples the linear system is singular (C96_kernel_bias_refuted); elsewhere it holds for that version whenever the system is regular."
  },
  {
   "property": "C97",
   "status": "partial",
   "theorems": [
    "POT.Props.C97_constants",
    "POT.Props.C97_necessary",
    "POT.Props.C97_feasible",
    "POT.Props.C97_regular",
    "POT.Props.C97_fit",
    "POT.Props.C97_init",
    "POT.Props.C97_bounds",
    "POT.Props.C97_interpolates",
    "POT.Props.C97_empty_class_refuted"
   ],
   "note": "CVXPY enters through its contract (it returns minimisers). False for queries of a class without training samples: the two problems are unbounded (C97_empty_class_refuted)."
  },
  {
   "property": "C98",
   "status": "partial",
   "theorems": [
    "POT.Props.C98_default_weights",
    "POT.Props.C98_mean",
    "POT.Props.C98_fixed_optimal",
    "POT.Props.C98_converges",
    "POT.Props.C98_solver",
    "POT.Props.C98_stab_step",
    "POT.Props.C98_stab_converges",
    "POT.Props.C98_weights_refuted"
   ],
   "note": "The stabilised solver is covered with its guard 1e-16 taken as 0 and for runs with finitely many absorptions (an absorption discards the differences between the histograms). Weights that do not sum to one are accepted and give a wrong result (C98_weights_refuted)."
  },
  {
   "property": "C99",
   "status": "partial",
   "theorems": [
    "POT.Props.C99_recast",
    "POT.Props.C99_schur",
    "POT.Props.C99_path_partial",
    "POT.Props.C99_path_example",
    "POT.Props.C99_tie_refuted",
    "POT.Props.C99_itmax_refuted"
   ],
   "note": "Fully relaxed path, with the guard 1e-16 taken as 0 and the two other tolerances arbitrary positive. Proved for runs without simultaneous events that end before itmax; false otherwise (C99_tie_refuted, C99_itmax_refuted). The semi-relaxed path is not modelled."
  },
  {
   "property": "C100",
   "status": "partial",
   "theorems": [
    "POT.Props.C100_cost",
    "POT.Props.C100_init",
    "POT.Props.C100_init_random",
    "POT.Props.C100_gradient",
    "POT.Props.C100_mirror",
    "POT.Props.C100_plan_marginals",
    "POT.Props.C100_plan_coupling",
    "POT.Props.C100_alpha",
    "POT.Props.C100_dykstra_columns",
    "POT.Props.C100_terminates",
    "POT.Props.C100_converges",
    "POT.Props.C100_outer",
    "POT.Props.C100_outer_step",
    "POT.Props.C100_value",
    "POT.Props.C100_kernel",
    "POT.Props.C100_unbound_refuted",
    "POT.Props.C100_value_rescaled_refuted"
   ],
   "note": "Proved for the inner loop, the outer steps, the cost factorisation and the kernel version. False of the code: the default rescaled value and tolerances >= 1 (refuted). k-means start and Nystroem kernels not modelled."
  },
  {
   "property": "C101",
   "status": "partial",
   "theorems": [
    "POT.Props.C101_value",
    "POT.Props.C101_gradient",
    "POT.Props.C101_gradient_guard",
    "POT.Props.C101_gap",
    "POT.Props.C101_kkt",
    "POT.Props.C101_kkt_necessary",
    "POT.Props.C101_solver",
    "POT.Props.C101_tv_refuted",
    "POT.Props.C101_guard_refuted"
   ],
   "note": "Proved with the guard constants taken as zero and SciPy's solver as a contract (first-order point). With the guards the gradient differs from that of the loss (exact bound, refuted); for total variation no first-order point need exist (refuted)."
  },
  {
   "property": "C102",
   "status": "proved",
   "theorems": [
    "POT.Props.C102_convolution",
    "POT.Props.C102_converges",
    "POT.Props.C102_stops",
    "POT.Props.C102_accuracy",
    "POT.Props.C102_log_converges",
    "POT.Props.C102_log_stops",
    "POT.Props.C102_log_accuracy"
   ],
   "note": "Plain method with the guard constant stabThr set to 0 (idealised); log method with any guard constant, for the guarded and renormalised images, and the result has mass 1 + w h stabThr."
  },
  {
   "property": "C103",
   "status": "partial",
   "theorems": [
    "POT.Props.C103_kernel_pd",
    "POT.Props.C103_debiased",
    "POT.Props.C103_debiased_log",
    "POT.Props.C103_single_column_refuted"
   ],
   "note": "Limits are optimal, unique, and the test is met. The plain method fails on images with one column and several rows because of nx.squeeze (C103_single_column_refuted). Convergence itself is a hypothesis, as in C84."
  },
  {
   "property": "C104",
   "status": "partial",
   "theorems": [
    "POT.Props.C104_solves",
    "POT.Props.C104_stops",
    "POT.Props.C104_converges",
    "POT.Props.C104_accuracy",
    "POT.Props.C104_value",
    "POT.Props.C104_potentials_refuted",
    "POT.Props.C104_fails_refuted"
   ],
   "note": "Solutions, stopping bound, limits, accuracy and values proved for both solvers and both gradient modes; the potentials and unknown reg_type parts are false of the code (refuted). Gradients through the loop are not modelled."
  },
  {
   "property": "C105",
   "status": "partial",
   "theorems": [
    "POT.Props.C105_metrics",
    "POT.Props.C105_kl",
    "POT.Props.C105_samples",
    "POT.Props.C105_logits_refuted",
    "POT.Props.C105_default_metric_refuted"
   ],
   "note": "Formulas proved; logits_X=True and the default metric of loss_linear_samples_batch are refuted."
  },
  {
   "property": "C106",
   "status": "partial",
   "theorems": [
    "POT.Props.C106_decompositions",
    "POT.Props.C106_loss",
    "POT.Props.C106_gradient",
    "POT.Props.C106_flag",
    "POT.Props.C106_init",
    "POT.Props.C106_step",
    "POT.Props.C106_inner_limit",
    "POT.Props.C106_result",
    "POT.Props.C106_kl_documented_refuted",
    "POT.Props.C106_flag_refuted",
    "POT.Props.C106_fails_refuted"
   ],
   "note": "Losses, derivative, steps, values proved; documented kl orientation, automatic symmetry test on nearly symmetric matrices and default alpha refuted."
  },
  {
   "property": "C107",
   "status": "proved",
   "theorems": [
    "POT.Props.C107_exact_exists",
    "POT.Props.C107_curvature",
    "POT.Props.C107_bounds",
    "POT.Props.C107_descent",
    "POT.Props.C107_monotone",
    "POT.Props.C107_stops",
    "POT.Props.C107_critical",
    "POT.Props.C107_global"
   ],
   "note": "Monotonicity and stopping over the whole loop are for inner projections that reach the marginals exactly (they exist); descent of one step and first-order points are for any inner solver."
  },
  {
   "property": "C108",
   "status": "partial",
   "theorems": [
    "POT.Props.C108_gradient_cross",
    "POT.Props.C108_gradient_full",
    "POT.Props.C108_gradient",
    "POT.Props.C108_loss",
    "POT.Props.C108_value",
    "POT.Props.C108_parts",
    "POT.Props.C108_rows_update",
    "POT.Props.C108_columns_update",
    "POT.Props.C108_result",
    "POT.Props.C108_near",
    "POT.Props.C108_fixed",
    "POT.Props.C108_range",
    "POT.Props.C108_rows",
    "POT.Props.C108_stopped",
    "POT.Props.C108_coupling_refuted",
    "POT.Props.C108_value_refuted",
    "POT.Props.C108_zero_weight_refuted"
   ],
   "note": "All positive parts proved. Convergence of the iteration to a fixed point is not claimed; the reading of the result as a coupling and of the value as the energy of the plan is refuted."
  },
  {
   "property": "C109",
   "status": "proved",
   "theorems": [
    "POT.Props.C109_marginals",
    "POT.Props.C109_loss",
    "POT.Props.C109_dual_feasible",
    "POT.Props.C109_converges",
    "POT.Props.C109_sliced",
    "POT.Props.C109_sliced_converges",
    "POT.Props.C109_order"
   ],
   "note": "exact real arithmetic; projections given; argsort represented by the permutation it returns; convergence under the no-ties hypothesis of C51 on every projection (C65_ties_refuted shows what fails with ties); eps is the constant of kl_div"
  },
  {
   "property": "C110",
   "status": "partial",
   "theorems": [
    "POT.Props.C110_gradient",
    "POT.Props.C110_step",
    "POT.Props.C110_step_marginals",
    "POT.Props.C110_mirror_step",
    "POT.Props.C110_factors",
    "POT.Props.C110_value",
    "POT.Props.C110_value_energy",
    "POT.Props.C110_value_objective",
    "POT.Props.C110_gamma",
    "POT.Props.C110_value_refuted",
    "POT.Props.C110_unbound_refuted",
    "POT.Props.C110_rescale_refuted",
    "POT.Props.C110_gamma_refuted"
   ],
   "note": "Partial only because the statement is false of the code in part: the reported value is the energy only when the last inner loop leaves g unchanged (refuted otherwise, C110_value gives what it is), the default rescaling makes different spaces isometric, and the default step size divides by zero for coinciding points. Convergence of the outer loop is not claimed."
  },
  {
   "property": "C111",
   "status": "partial",
   "theorems": [
    "POT.Props.C111_gradient",
    "POT.Props.C111_objective",
    "POT.Props.C111_budget",
    "POT.Props.C111_parameters",
    "POT.Props.C111_screening",
    "POT.Props.C111_solution",
    "POT.Props.C111_unique",
    "POT.Props.C111_marginals",
    "POT.Props.C111_plan",
    "POT.Props.C111_box",
    "POT.Props.C111_box_solution",
    "POT.Props.C111_restricted",
    "POT.Props.C111_start",
    "POT.Props.C111_full",
    "POT.Props.C111_box_refuted",
    "POT.Props.C111_ties_refuted",
    "POT.Props.C111_unbound_refuted",
    "POT.Props.C111_full_refuted"
   ],
   "note": "Everything is proved for a solver result meeting the first-order contract (fmin_l_bfgs_b is outside the model). False of the code: K_min is taken over selected rows and columns, so the box can exclude the optimum or be empty (C111_box_refuted); ties and restricted=False leave constants unbound (C111_ties_refuted, C111_unbound_refuted); the full budget raises for rectangular problems (C111_full_refuted). Budget count proved for uniform=False; parameters and safety for both flags."
  },
  {
   "property": "C112",
   "status": "partial",
   "theorems": [
    "POT.Props.C112_draw_all",
    "POT.Props.C112_unbiased",
    "POT.Props.C112_unbiased_subsample",
    "POT.Props.C112_swap",
    "POT.Props.C112_samples",
    "POT.Props.C112_direction",
    "POT.Props.C112_best",
    "POT.Props.C112_threshold",
    "POT.Props.C112_pointwise",
    "POT.Props.C112_gradient",
    "POT.Props.C112_mirror",
    "POT.Props.C112_sampled",
    "POT.Props.C112_stop",
    "POT.Props.C112_lmo",
    "POT.Props.C112_biased_refuted",
    "POT.Props.C112_swap_refuted",
    "POT.Props.C112_gradient_refuted",
    "POT.Props.C112_small_refuted",
    "POT.Props.C112_no_iteration_refuted"
   ],
   "note": "The documentation claims an unbiased estimate without restriction: false for non-uniform weights (C112_biased_refuted) and for non-symmetric losses with a smaller source (C112_swap_refuted). With several columns per row, drawn without replacement, the sampled gradient is biased, and independent of the plan when all columns are drawn (C112_gradient_refuted); the default call raises for at most nine points a side (C112_small_refuted). Inner solvers of sampled_gromov_wasserstein are taken by contract; entries of the plan below exp(-200) are not modelled."
  },
  {
   "property": "C113",
   "status": "partial",
   "theorems": [
    "POT.Props.C113_mass",
    "POT.Props.C113_stationary_optimal",
    "POT.Props.C113_stop",
    "POT.Props.C113_error_meaning",
    "POT.Props.C113_histogram_refuted",
    "POT.Props.C113_alpha_zero_refuted",
    "POT.Props.C113_alpha_one_refuted",
    "POT.Props.C113_zero_iterations_refuted"
   ],
   "note": "The documented meaning of alpha is false of the code (weights exchanged: alpha weights the data term, and both terms are divided by their regularisation); the result need not be a histogram; numItermax=0 returns the kernel's row sums. Convergence and dictionaries of overlapping atoms are not covered by the optimality theorem."
  },
  {
   "property": "C114",
   "status": "partial",
   "theorems": [
    "POT.Props.C114_simplex",
    "POT.Props.C114_plans",
    "POT.Props.C114_stationary_plans",
    "POT.Props.C114_stationary_optimal_partial",
    "POT.Props.C114_stop",
    "POT.Props.C114_success",
    "POT.Props.C114_zero_iterations_refuted",
    "POT.Props.C114_missing_class_refuted",
    "POT.Props.C114_labels_refuted",
    "POT.Props.C114_mutation_refuted",
    "POT.Props.C114_argmin_refuted",
    "POT.Props.C114_soft_labels_refuted"
   ],
   "note": "Minimality holds with one sample per class and domain, and is refuted otherwise; labels are aligned by the minimum of each domain, the caller's arrays are overwritten, and labels with gaps raise. The guard 1e-10 of the projections is assumed inactive in the optimality and plan theorems."
  },
  {
   "property": "C115",
   "status": "partial",
   "theorems": [
    "POT.Props.C115_coordinate",
    "POT.Props.C115_coordinate_distance",
    "POT.Props.C115_ssw_value",
    "POT.Props.C115_ssw_metric",
    "POT.Props.C115_rotation",
    "POT.Props.C115_scale",
    "POT.Props.C115_plane_basis",
    "POT.Props.C115_unif_partial",
    "POT.Props.C115_lssot_metric",
    "POT.Props.C115_projections_refuted",
    "POT.Props.C115_lssot_default_refuted",
    "POT.Props.C115_unif_refuted"
   ],
   "note": "Partial because parts are false of the code: weights are not reordered in the uniform case, X_t=None raises, and n_projections must equal the number of given planes. Samples orthogonal to a plane (NaN) are excluded."
  },
  {
   "property": "C116",
   "status": "partial",
   "theorems": [
    "POT.Props.C116_partitioned",
    "POT.Props.C116_singletons",
    "POT.Props.C116_order",
    "POT.Props.C116_sorted_partial",
    "POT.Props.C116_representant",
    "POT.Props.C116_methods_partial",
    "POT.Props.C116_samples_method",
    "POT.Props.C116_alpha",
    "POT.Props.C116_order_refuted",
    "POT.Props.C116_representant_refuted",
    "POT.Props.C116_methods_refuted"
   ],
   "note": "assembly proved for all partitions; false of the code: rows and columns of T come in partition order, so T is not a coupling of p and q and the logged loss is wrong unless the labels are sorted; networkx methods are never used; representants 0,1,... when every node is its own partition; kmeans_fused raises for the default alpha"
  },
  {
   "property": "C117",
   "status": "partial",
   "theorems": [
    "POT.Props.C117_delta",
    "POT.Props.C117_cost",
    "POT.Props.C117_value",
    "POT.Props.C117_metric",
    "POT.Props.C117_zero",
    "POT.Props.C117_invariance",
    "POT.Props.C117_martin_refuted",
    "POT.Props.C117_q_refuted",
    "POT.Props.C117_doc_refuted",
    "POT.Props.C117_short_refuted"
   ],
   "note": "metric laws proved for the geodesic, chordal and Procrustes metrics with 0<q<=2, p,r>=1; false of the code: triangle inequality for the Martin metric and for q>2, the formula documented in sgot_cost_matrix for q != 2, eigenvectors shorter than 1e-12"
  },
  {
   "property": "C118",
   "status": "partial",
   "theorems": [
    "POT.Props.C118_merge",
    "POT.Props.C118_mix",
    "POT.Props.C118_copies",
    "POT.Props.C118_call",
    "POT.Props.C118_inner",
    "POT.Props.C118_similarity",
    "POT.Props.C118_line",
    "POT.Props.C118_merge_bijections_partial",
    "POT.Props.C118_merge_count",
    "POT.Props.C118_threads",
    "POT.Props.C118_seed_partial",
    "POT.Props.C118_seed_ignored",
    "POT.Props.C118_line_refuted",
    "POT.Props.C118_merge_bijections_refuted",
    "POT.Props.C118_seed_refuted"
   ],
   "note": "compute_bspot_bijection and the merging are proved for every outcome of the random draws and of the unspecified orders. False of the code: merge_bijections passes the number of points as the number of bijections (overrun or ignored plans), the seed is read once per thread and process, and default slicing of fewer than 50 points on a line uses the zero direction."
  },
  {
   "property": "C119",
   "status": "partial",
   "theorems": [
    "POT.Props.C119_round",
    "POT.Props.C119_inner",
    "POT.Props.C119_stationary",
    "POT.Props.C119_rate",
    "POT.Props.C119_curvature",
    "POT.Props.C119_fused_unmixing",
    "POT.Props.C119_fused_monotone",
    "POT.Props.C119_unmixing",
    "POT.Props.C119_gw_inner",
    "POT.Props.C119_gradient",
    "POT.Props.C119_descent",
    "POT.Props.C119_projection",
    "POT.Props.C119_projection_adam",
    "POT.Props.C119_adam",
    "POT.Props.C119_best_partial",
    "POT.Props.C119_asymmetric_refuted",
    "POT.Props.C119_best_refuted"
   ],
   "note": "Proved when the structure or all atoms are symmetric; for asymmetric ones refuted. The claim that the best dictionary is returned is refuted; which one is returned is proved. Fused dictionary learning is not modelled."
  },
  {
   "property": "C120",
   "status": "partial",
   "theorems": [
    "POT.Props.C120_lazy_end_to_end_partial",
    "POT.Props.C120_lazy_exact",
    "POT.Props.C120_gradient_partial",
    "POT.Props.C120_zero_weight_refuted",
    "POT.Props.C120_negative_refuted"
   ],
   "note": "Proved for nonnegative weights; potentials and gradients only between points of positive weight, since they are wrong at points of weight zero (C120_zero_weight_refuted). Negative weights are silently dropped (C120_negative_refuted). Warm starts are not modelled."
  },
  {
   "property": "C121",
   "status": "partial",
   "theorems": [
    "POT.Props.C121_dense",
    "POT.Props.C121_exact_partial",
    "POT.Props.C121_entropic_state",
    "POT.Props.C121_entropic",
    "POT.Props.C121_entropic_ignores",
    "POT.Props.C121_lazy_value_refuted",
    "POT.Props.C121_lazy_l2_refuted",
    "POT.Props.C121_one_dimensional",
    "POT.Props.C121_gaussian_partial",
    "POT.Props.C121_gaussian_weights_refuted",
    "POT.Props.C121_factored_partial",
    "POT.Props.C121_factored_weights_refuted",
    "POT.Props.C121_refused",
    "POT.Props.C121_divergence_limit",
    "POT.Props.C121_divergence_zero"
   ],
   "note": "dense call = ot.solve on the ground costs; lazy exact and lazy entropic agree with it; 1d exact per dimension; divergence: limit, symmetry, zero; refuted: value missing from lazy entropic results, reg_type ignored with lazy=True, sample weights ignored by gaussian and factored; lowrank/nystroem/geomloss branches not modelled here"
  },
  {
   "property": "C122",
   "status": "partial",
   "theorems": [
    "POT.Props.C122_prw_result",
    "POT.Props.C122_prw_stop",
    "POT.Props.C122_prw_returns",
    "POT.Props.C122_prw_pair_refuted"
   ],
   "note": "Proved for every QR routine. False of the code: the returned plan belongs to the projection before the last update (C122_prw_pair_refuted). Ascent needs stepsize times projected cost at most reg. Convergence to a maximiser is not claimed."
  },
  {
   "property": "C123",
   "status": "partial",
   "theorems": [
    "POT.Props.C123_ewca_result",
    "POT.Props.C123_ewca_stop",
    "POT.Props.C123_ewca_descent",
    "POT.Props.C123_ewca_start",
    "POT.Props.C123_ewca_returns",
    "POT.Props.C123_mm_start_refuted"
   ],
   "note": "Proved with an exact inner Sinkhorn solver. False of the code: method='MM' with U0 raises (C123_mm_start_refuted)."
  },
  {
   "property": "C124",
   "status": "partial",
   "theorems": [
    "POT.Props.C124_wda_loss_partial",
    "POT.Props.C124_wda_normalized_partial",
    "POT.Props.C124_fda_directions",
    "POT.Props.C124_fda_count",
    "POT.Props.C124_fda_one_class_refuted",
    "POT.Props.C124_fda_overwrites",
    "POT.Props.C124_fda_centering_refuted",
    "POT.Props.C124_fda_fisher_refuted"
   ],
   "note": "The wda objective converges to twice the documented ratio (guard 1e-50 of the plain solver idealised; the manifold optimiser itself is not modelled). False of the code: fda uses one number per class instead of a mean vector, so its directions are not Fisher directions; the samples are not centred per feature, the caller's array is overwritten, and with one class all eigenvectors are returned."
  },
  {
   "property": "C125",
   "status": "partial",
   "theorems": [
    "POT.Props.C125_fgw_result",
    "POT.Props.C125_fgw_descent",
    "POT.Props.C125_fgw_last",
    "POT.Props.C125_gw_result",
    "POT.Props.C125_gw_descent",
    "POT.Props.C125_sr_result",
    "POT.Props.C125_sr_descent",
    "POT.Props.C125_srgw_result",
    "POT.Props.C125_entropic_result",
    "POT.Props.C125_entropic_fused_structure",
    "POT.Props.C125_fixed_one_iteration_refuted",
    "POT.Props.C125_sr_fixed_one_iteration_refuted",
    "POT.Props.C125_or_test_refuted",
    "POT.Props.C125_entropic_features_refuted",
    "POT.Props.C125_logged_loss_refuted",
    "POT.Props.C125_zero_loss_refuted"
   ],
   "note": "feasible plans, fixed parts, optimality of the returned barycenter for the plans, descent and the stop of the structure-only functions proved; the joint stopping test, the returned entropic features and the logged loss are refuted; semi-relaxed for the square loss; no descent claimed for the entropic variants"
  },
  {
   "property": "C126",
   "status": "partial",
   "theorems": [
    "POT.Props.C126_descent",
    "POT.Props.C126_gradient",
    "POT.Props.C126_returned",
    "POT.Props.C126_hull",
    "POT.Props.C126_divergence_refuted"
   ],
   "note": "descent, termination, gradient step, returned point and convex hull proved for an exact inner solver (the hull for any solver with the right first marginal); the documented Sinkhorn divergence is refuted: the function works on the plain entropic cost"
  },
  {
   "property": "C127",
   "status": "partial",
   "theorems": [
    "POT.Props.C127_path_partial",
    "POT.Props.C127_path_example",
    "POT.Props.C127_recast",
    "POT.Props.C127_column_tie_refuted",
    "POT.Props.C127_itmax_refuted",
    "POT.Props.C127_no_iteration_refuted"
   ],
   "note": "Optimal for every parameter from reg on for positive target weights, unique column minima and a run without coincidences that ends before itmax. False with tied column minima and at the iteration limit (refutations)."
  },
  {
   "property": "C128",
   "status": "proved",
   "theorems": [
    "POT.Props.C128_history",
    "POT.Props.C128_standard",
    "POT.Props.C128_minmax",
    "POT.Props.C128_l2",
    "POT.Props.C128_order",
    "POT.Props.C128_units",
    "POT.Props.C128_apply",
    "POT.Props.C128_sliced"
   ],
   "note": "Exact real arithmetic; arrays with at least one row for the statements on normalised data."
  },
  {
   "property": "C129",
   "status": "partial",
   "theorems": [
    "POT.Props.C129_warm_start_partial",
    "POT.Props.C129_value_independent",
    "POT.Props.C129_max_iter_overfull_refuted"
   ],
   "note": "Exact arithmetic; the initial potentials are replaced by an arbitrary order of the arcs. Return is proved only with an iteration limit. The plan of a run stopped by the limit can exceed the marginals (refuted)."
  },
  {
   "property": "C130",
   "status": "proved",
   "theorems": [
    "POT.Props.C130_admissible",
    "POT.Props.C130_clustering",
    "POT.Props.C130_soft",
    "POT.Props.C130_features",
    "POT.Props.C130_names",
    "POT.Props.C130_zero_weight_cluster_refuted"
   ],
   "note": "Exact arithmetic; labels arbitrary, exact solver by its contract (C06). With a cluster of weight zero the plan is NaN (refuted)."
  },
  {
   "property": "C131",
   "status": "proved",
   "theorems": [
    "POT.Props.C131_batch",
    "POT.Props.C131_batch_wasserstein",
    "POT.Props.C131_values",
    "POT.Props.C131_layer",
    "POT.Props.C131_tfgw_forward",
    "POT.Props.C131_adjacency_symmetric",
    "POT.Props.C131_float_alpha_refuted",
    "POT.Props.C131_directed_refuted",
    "POT.Props.C131_empty_graph_refuted"
   ],
   "note": "Exact arithmetic; solvers and feature distance are parameters; alpha given as a tensor. A float alpha raises TypeError, directed graphs give a matrix that is not symmetric, graphs without nodes at the end of a batch are dropped (refuted)."
  },
  {
   "property": "C132",
   "status": "partial",
   "theorems": [
    "POT.Props.C132_rejects",
    "POT.Props.C132_gw",
    "POT.Props.C132_fgw",
    "POT.Props.C132_fgw_mass",
    "POT.Props.C132_gw_mass",
    "POT.Props.C132_direction",
    "POT.Props.C132_mass_refuted",
    "POT.Props.C132_start_mass_refuted"
   ],
   "note": "Every call ends in a partial plan with the logged value of its objective, not above the start, for any exact linear solver. The mass is at least m (or that of the start); it is exactly m for fused problems with nonnegative features costs that are not all zero and alpha < 1, and for Gromov-Wasserstein when the loss is positive on all pairs of entries. In general it is not: the cost between dummy points is 100*max of the linear term, zero for Gromov-Wasserstein (C132_mass_refuted), and the mass of a given start is not checked (C132_start_mass_refuted). The exact linear solver is a hypothesis; the error raised at its iteration limit is not modelled."
  },
  {
   "property": "C133",
   "status": "proved",
   "theorems": [
    "POT.Props.C133_feasible",
    "POT.Props.C133_projection",
    "POT.Props.C133_closest",
    "POT.Props.C133_consistent",
    "POT.Props.C133_nonexpansive",
    "POT.Props.C133_stack",
    "POT.Props.C133_eigh_exists"
   ],
   "note": "eigh is a parameter assumed to return an eigendecomposition of the symmetric input (one exists: C133_eigh_exists). Real arithmetic. For an input that is not symmetric LAPACK reads one triangle; not modelled (the documentation asks for symmetric matrices)."
  },
  {
   "property": "C134",
   "status": "partial",
   "theorems": [
    "POT.Props.C134_rejects",
    "POT.Props.C134_anchor_kernel",
    "POT.Props.C134_one_anchor",
    "POT.Props.C134_exact",
    "POT.Props.C134_exact_plan",
    "POT.Props.C134_marginals",
    "POT.Props.C134_loss",
    "POT.Props.C134_pinv_exists",
    "POT.Props.C134_sample_errors",
    "POT.Props.C134_sample",
    "POT.Props.C134_negative_refuted"
   ],
   "note": "Everything but the non-negativity with few anchors is proved. Non-negativity with few anchors is false: for two explicit points on each side and two anchors the plan has a negative entry for all weights, iteration limits, tolerances and warm starts. The eigenvalue cut-off of pinv and rounding are not modelled."
  },
  {
   "property": "C135",
   "status": "proved",
   "theorems": [
    "POT.Props.C135_names",
    "POT.Props.C135_history",
    "POT.Props.C135_roundtrip",
    "POT.Props.C135_errors",
    "POT.Props.C135_atomic_refuted"
   ],
   "note": "Objects whose attributes are not estimators themselves (true of all classes of POT). C135_atomic_refuted exhibits a refused call that changed a parameter."
  },
  {
   "property": "C136",
   "status": "proved",
   "theorems": [
    "POT.Props.C136_clean_zeros",
    "POT.Props.C136_gauss",
    "POT.Props.C136_dist0"
   ],
   "note": "Real arithmetic: underflow of the exponential in make_1D_gauss is not modelled."
  }
 ]
}