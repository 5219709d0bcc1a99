{"id": "C01", "title": "emd_1d never writes outside its buffers and always returns", "statement": "The two-pointer loop behind ot.emd_1d / emd2_1d terminates and emits at least one and at most n+m-1 entries, every emitted index pair is inside the n x m plan, whatever the numeric comparisons return (so also for rounding errors, negative weights or NaN).", "quantifier": "all n,m>=1, all weights, all outcomes of the floating point comparisons", "why_tests_cant": "the output buffers are allocated with n+m-1 slots without bound checks; only a proof over all comparison outcomes excludes an overrun", "anchors": ["ot/lp/emd_wrap.pyx:emd_1d_sorted"]}
{"id": "C02", "title": "emd_1d returns a transport plan with exactly the requested marginals", "statement": "For non-negative weights of equal total mass the plan returned by emd_1d is non-negative, its row sums are the source weights and its column sums the target weights, and the returned cost is the cost of that plan.", "quantifier": "all sizes n,m>=1, all non-negative weights with equal sums (zeros included), all cost functions", "why_tests_cant": "finitely many inputs cannot cover all tie patterns, zero weights and sizes", "anchors": ["ot/lp/emd_wrap.pyx:emd_1d_sorted", "ot/lp/solver_1d.py:emd_1d,emd2_1d"]}
{"id": "C03", "title": "emd_1d plan is optimal for convex costs of the difference", "statement": "For sorted positions and a cost h(x-y) with h convex (in particular |x-y|^p, p>=1: the metrics sqeuclidean, euclidean, cityblock, minkowski), no coupling of the two weight vectors is cheaper than the plan of emd_1d, so emd2_1d is the true optimal transport value.", "quantifier": "all sorted supports, all weights of equal mass, all convex h, all competing couplings", "why_tests_cant": "optimality is a statement about all competing couplings", "anchors": ["ot/lp/emd_wrap.pyx:emd_1d_sorted", "ot/lp/solver_1d.py:emd2_1d"]}
{"id": "C04", "title": "wasserstein_1d equals the optimal transport value", "statement": "The quantile formula of ot.wasserstein_1d (merge the two cumulative weight grids, sum width times cost between quantiles) returns the cost of the optimal plan, i.e. agrees with emd2_1d.", "quantifier": "all sorted supports, all non-negative weights with equal sums, all p>=1", "why_tests_cant": "agreement of two different algorithms on every input", "anchors": ["ot/lp/solver_1d.py:wasserstein_1d,quantile_function"]}
{"id": "C05", "title": "emd: every pivot preserves the marginals", "statement": "Throughout the network simplex run started from its artificial initial basis, for any sequence of pivots, the flow stays non-negative and flow conservation holds at every node; hence when the solver reports OPTIMAL the plan returned by ot.emd is non-negative with row sums a and column sums b.", "quantifier": "all bipartite problems with equal masses, all pivot sequences the pivot rule can produce, all lengths of the run", "why_tests_cant": "the run is unbounded and the pivot rule has many admissible choices; tests see only few paths", "anchors": ["ot/lp/network_simplex_simple.h:init,findLeavingArc,changeFlow,updateTreeStructure,start", "ot/lp/EMD_wrapper.cpp:EMD_wrap"]}
{"id": "C06", "title": "emd: OPTIMAL means optimal, with a dual certificate", "statement": "When the network simplex stops because no arc violates the reduced cost test, the returned plan is a minimiser of <G,M> over all couplings (up to the pivot tolerance), the returned potentials satisfy u_i+v_j<=M_ij, and the reported cost equals sum a u + sum b v.", "quantifier": "all cost matrices, all couplings competing with the returned one, all runs", "why_tests_cant": "optimality and dual feasibility quantify over all couplings and all histories", "anchors": ["ot/lp/network_simplex_simple.h:findEnteringArc,updatePotential,start", "ot/lp/_network_simplex.py:emd,emd2"]}
{"id": "C07", "title": "emd never reports a balanced problem as infeasible", "statement": "For weights with equal sums on the complete bipartite graph the solver never ends with status INFEASIBLE (the artificial arcs are empty when it stops).", "quantifier": "all sizes, all weights with equal sums, all cost matrices, all runs", "why_tests_cant": "depends on the big-M constant beating every cost matrix", "anchors": ["ot/lp/network_simplex_simple.h:init,start", "ot/lp/emd_wrap.pyx:check_result"]}
{"id": "C08", "title": "the tree bookkeeping of the simplex stays a spanning tree", "statement": "After every pivot the parent / thread / reverse-thread / successor-count / last-successor arrays describe one and the same spanning tree rooted at the artificial node, so the walks along parents and along the thread terminate and visit the intended nodes.", "quantifier": "all reachable tree states, all pivots (all positions of the leaving arc)", "why_tests_cant": "array updates with many special cases; a wrong link only shows on particular tree shapes", "anchors": ["ot/lp/network_simplex_simple.h:updateTreeStructure,findJoinNode,updatePotential"]}
{"id": "C09", "title": "the network simplex cannot cycle", "statement": "With the leaving arc rule of the code (first candidate on one side, last on the other) every run of exact pivots is finite: the solver stops after finitely many pivots whatever the pivot rule chooses.", "quantifier": "all problems, all pivot sequences", "why_tests_cant": "non-termination cannot be observed by a test", "anchors": ["ot/lp/network_simplex_simple.h:findLeavingArc"]}
{"id": "C10", "title": "block search pivot rule misses no violating arc", "statement": "The pivot search reports 'no entering arc' only if every arc passes the optimality test, whatever the block size, the starting position and the number of arcs, and an arc it returns does violate the test.", "quantifier": "all block sizes >=1, all starting positions, all costs, states and potentials", "why_tests_cant": "wrap-around and block boundary combinations", "anchors": ["ot/lp/network_simplex_simple.h:BlockSearchPivotRule::findEnteringArc"]}
{"id": "C11", "title": "arc numbering of the bipartite graph is a bijection", "statement": "In the dense graph each (source, target) pair has exactly one arc id below n1*n2, and source/target/arc/first/next are mutually consistent, so every cost matrix entry is read for the arc it belongs to and every plan entry is written once.", "quantifier": "all n1,n2>=1 and all node pairs", "why_tests_cant": "index arithmetic for all sizes", "anchors": ["ot/lp/full_bipartitegraph.h:arc,source,target,first,next", "ot/lp/EMD_wrapper.cpp:extract_dense_full_support"]}
{"id": "C12", "title": "arc mixing enumerates every arc exactly once", "statement": "The strided ('mixed') ordering of arcs used at reset is a permutation of all arcs, and the closed-form conversions between position and arc id agree with the enumeration and invert each other.", "quantifier": "all arc counts and all strides >=1 as chosen by the code", "why_tests_cant": "depends on divisibility of the arc count by the stride", "anchors": ["ot/lp/network_simplex_simple.h:reset,sequence,getArcID"]}
{"id": "C13", "title": "packed arc state vector behaves as an array of states", "statement": "Storing the three arc states in 2-bit fields of bytes behaves exactly like an array: reading a position returns the last value written there, other positions are unaffected.", "quantifier": "all sizes, all positions, all histories of writes", "why_tests_cant": "bit-level interference depends on position modulo 4 and history", "anchors": ["ot/lp/network_simplex_simple.h:PackedStateVector"]}
{"id": "C14", "title": "sparse solver graph finds exactly the listed edges", "statement": "The compressed row structure built from an edge list answers source/target/arc lookup and out-arc / in-arc iteration exactly according to the edge list.", "quantifier": "all edge lists, all nodes", "why_tests_cant": "all orders of edges and all degree patterns", "anchors": ["ot/lp/sparse_bipartitegraph.h:buildFromEdges,arc,firstOut,nextOut,firstIn,nextIn"]}
{"id": "C15", "title": "zero-weight points can be dropped and put back", "statement": "ot.emd solves on the rows/columns with non-zero weight and inflates the result: the inflated plan is a coupling of the original weights, has the same cost as the reduced one, and is optimal for the original problem whenever the reduced one is optimal.", "quantifier": "all weights with any pattern of zeros, all cost matrices", "why_tests_cant": "all zero patterns", "anchors": ["ot/lp/_network_simplex.py:_compute_active_subset,_inflate_from_active_subset,emd", "ot/lp/EMD_wrapper.cpp:extract_compressed_support"]}
{"id": "C16", "title": "centering duals keeps them valid", "statement": "center_ot_dual shifts the potentials by opposite constants: all sums alpha_i+beta_j (hence dual feasibility) are unchanged, for equal masses the dual objective is unchanged, and afterwards <alpha,a>=<beta,b>.", "quantifier": "all potentials, all weights with non-zero total mass", "why_tests_cant": "identity over all real inputs", "anchors": ["ot/lp/_network_simplex.py:center_ot_dual"]}
{"id": "C17", "title": "dual potentials are repaired on zero-weight points", "statement": "estimate_dual_null_weights returns potentials that satisfy alpha_i+beta_j<=M_ij for all pairs, zero-weight ones included, without changing the dual objective, whenever the input is feasible on the support.", "quantifier": "all weights, all zero patterns, all input potentials feasible on the support", "why_tests_cant": "all zero patterns and potentials", "anchors": ["ot/lp/_network_simplex.py:estimate_dual_null_weights"]}
{"id": "C18", "title": "emd2 dual variables are subgradients of the cost", "statement": "The centred dual variables that emd2 attaches as gradients w.r.t. a and b are subgradients: for any other weights a',b' with the same total mass as a,b the transport value is at least value + <u,a'-a> + <v,b'-b>; and the plan is a supergradient with respect to the cost matrix.", "quantifier": "all problems, all perturbed weights and cost matrices", "why_tests_cant": "inequality against all perturbations", "anchors": ["ot/lp/_network_simplex.py:emd2"]}
{"id": "C19", "title": "proj_simplex is the Euclidean projection on the simplex", "statement": "Every column returned by proj_simplex is non-negative, sums to z and is at least as close to the input column as any other point of the simplex; points already in the simplex are returned unchanged.", "quantifier": "all vectors of any length >=1, all z>0, all competing simplex points", "why_tests_cant": "optimality over all competing points; all orderings/ties of entries", "anchors": ["ot/utils.py:proj_simplex", "ot/smooth.py:projection_simplex"]}
{"id": "C20", "title": "projection_sparse_simplex respects sparsity and is a best approximation", "statement": "projection_sparse_simplex returns a point of the simplex with at most max_nz non-zeros which is closest among all such points.", "quantifier": "all vectors, all max_nz>=1, all competing sparse simplex points", "why_tests_cant": "combinatorial choice of support", "anchors": ["ot/utils.py:projection_sparse_simplex"]}
{"id": "C21", "title": "pairwise squared distances are squared distances", "statement": "euclidean_distances / dist(metric='sqeuclidean') (and the batched variant) return sum_k (x_ik-y_jk)^2 : non-negative, symmetric for X=Y, zero exactly for equal points, and the clipping at zero and the forced zero diagonal never change an exact value.", "quantifier": "all sample matrices of all sizes and dimensions", "why_tests_cant": "identity over all inputs", "anchors": ["ot/utils.py:euclidean_distances,dist", "ot/batch/_linear.py:dist_euclidean_batch"]}
{"id": "C22", "title": "batch size never changes a reduction", "statement": "Block-wise evaluation (reduce_lazytensor, sparse_ot_dist and the lazy empirical Sinkhorn marginals) gives the result of the unbatched computation for every batch size.", "quantifier": "all sizes, all batch sizes >=1, including those that do not divide the size", "why_tests_cant": "boundary of the last block for all size/batch combinations", "anchors": ["ot/utils.py:reduce_lazytensor,sparse_ot_dist", "ot/utils.py:LazyTensor"]}
{"id": "C23", "title": "sparse_ot_dist weights each pair with its own weight", "statement": "sparse_ot_dist(x1,x2,i,j,w) returns sum_k w_k d(x1[i_k],x2[j_k]).", "quantifier": "all index lists and weights", "why_tests_cant": "tests use identity index lists only", "anchors": ["ot/utils.py:sparse_ot_dist", "ot/sliced/_sliced_plans.py:sliced_plans"]}
{"id": "C24", "title": "label helpers and parameter helpers", "statement": "labels_to_masks / label_normalization are consistent relabelings (equal labels get equal images, distinct labels stay distinct, masks have exactly one 1 per row), get_parameter_pair returns the intended pair for every accepted shape, check_number_threads accepts exactly the documented values.", "quantifier": "all label lists and parameters", "why_tests_cant": "all inputs", "anchors": ["ot/utils.py:label_normalization,labels_to_masks,get_parameter_pair,check_number_threads"]}
{"id": "C25", "title": "sinkhorn iterates are positive and satisfy one marginal exactly", "statement": "With a positive kernel and positive weights every iterate of sinkhorn_knopp stays positive and well defined (no division by zero), and the plan diag(u)K diag(v) after each full iteration has row sums exactly a, so it has total mass exactly sum a.", "quantifier": "all positive kernels, weights, initialisations and iteration counts", "why_tests_cant": "unbounded iteration count", "anchors": ["ot/bregman/_sinkhorn.py:sinkhorn_knopp"]}
{"id": "C26", "title": "a converged Sinkhorn plan is the entropic optimum", "statement": "If the plan diag(u)K diag(v), K=exp(-M/reg), has marginals a and b then it is the unique minimiser of <P,M>+reg*sum P log P over all couplings; the scalings give the dual optimum.", "quantifier": "all costs, reg>0, all competing couplings", "why_tests_cant": "optimality over all couplings", "anchors": ["ot/bregman/_sinkhorn.py:sinkhorn,sinkhorn_knopp,sinkhorn_log"]}
{"id": "C27", "title": "sinkhorn iterations approach the entropic optimum monotonically and reach any tolerance", "statement": "Every Sinkhorn iteration does not increase the KL divergence from any coupling with the requested marginals (in particular from the optimum), the marginal violation tends to zero, and so the stopping test with any positive threshold is eventually met.", "quantifier": "all positive kernels and weights, all tolerances, all iteration counts", "why_tests_cant": "limit behaviour", "anchors": ["ot/bregman/_sinkhorn.py:sinkhorn_knopp"]}
{"id": "C28", "title": "log-domain Sinkhorn computes the same plans", "statement": "sinkhorn_log (and the batched log solver) produces at each iteration exactly the logarithms of the scalings of the multiplicative algorithm; the plans coincide.", "quantifier": "all inputs, all iteration counts, all warm starts", "why_tests_cant": "equality of two programs on all inputs", "anchors": ["ot/bregman/_sinkhorn.py:sinkhorn_log,sinkhorn_knopp", "ot/batch/_utils.py:bregman_log_projection_batch,bregman_projection_batch"]}
{"id": "C29", "title": "stabilized Sinkhorn: absorption does not change the iterates", "statement": "In sinkhorn_stabilized, whenever and however often the scalings are absorbed into the potentials (whatever tau), the plan after each scaling update is the plan of plain Sinkhorn after the same number of updates, and the returned plan is that plan.", "quantifier": "all schedules of absorption, all iteration counts", "why_tests_cant": "the schedule depends on data; all schedules must be covered", "anchors": ["ot/bregman/_sinkhorn.py:sinkhorn_stabilized"]}
{"id": "C30", "title": "greenkhorn keeps its violation vectors exact", "statement": "The incrementally updated marginal violations of greenkhorn equal the true row and column violations of the current plan after every greedy update, and the row/column just updated is matched exactly.", "quantifier": "all greedy choices (all tie breaks), all iteration counts", "why_tests_cant": "incremental bookkeeping over unbounded histories", "anchors": ["ot/bregman/_sinkhorn.py:greenkhorn"]}
{"id": "C31", "title": "epsilon scaling schedule decreases to the requested regularisation", "statement": "The regularisation schedule of sinkhorn_epsilon_scaling stays between reg and epsilon0, decreases strictly, never falls below reg, and tends to reg.", "quantifier": "all epsilon0>reg>0, all iteration numbers", "why_tests_cant": "limit behaviour", "anchors": ["ot/bregman/_sinkhorn.py:sinkhorn_epsilon_scaling"]}
{"id": "C32", "title": "several histograms at once equal separate runs", "statement": "Calling the Sinkhorn solvers with b of shape (m, h) gives for each histogram the result of the call with that histogram alone, for every h>=1, and never fails for a valid h.", "quantifier": "all numbers of histograms", "why_tests_cant": "all h including the boundary case h=1", "anchors": ["ot/bregman/_sinkhorn.py:sinkhorn_knopp,sinkhorn_log,sinkhorn2"]}
{"id": "C33", "title": "solve(grad='last_step') returns a plan of the Sinkhorn family", "statement": "The plan returned by ot.solve with grad='last_step' after the extra update has exact row marginals (as after any Sinkhorn iteration).", "quantifier": "all inputs", "why_tests_cant": "exact identity on all inputs", "anchors": ["ot/solvers.py:solve"]}
{"id": "C34", "title": "quadratic line search returns the minimiser on [0,1]", "statement": "solve_1d_linesearch_quad(a,b) returns a point of [0,1] minimising a x^2 + b x on [0,1].", "quantifier": "all real a, b, all competing step sizes", "why_tests_cant": "optimality over the continuum, all sign cases", "anchors": ["ot/optim.py:solve_1d_linesearch_quad"]}
{"id": "C35", "title": "conditional gradient iterates stay couplings", "statement": "Starting from a coupling, every iterate of generic_conditional_gradient (cg, gcg, GW, FGW) is a coupling of the same weights, for any line search returning steps in [0,1], and it stops after at most numItermax iterations.", "quantifier": "all objective functions, line searches with steps in [0,1], all numbers of iterations", "why_tests_cant": "unbounded iterations, arbitrary user objective", "anchors": ["ot/optim.py:generic_conditional_gradient,cg,gcg"]}
{"id": "C36", "title": "conditional gradient never increases the objective and reports its true value", "statement": "With the exact quadratic line search the loss recorded at each iteration equals the objective of the current plan, the sequence of recorded losses is non-increasing, and the returned plan attains the last recorded loss.", "quantifier": "all Gromov problems, all iterations", "why_tests_cant": "unbounded iterations; the cost is updated incrementally and could drift from the truth", "anchors": ["ot/optim.py:generic_conditional_gradient", "ot/gromov/_gw.py:solve_gromov_linesearch"]}
{"id": "C37", "title": "semi-relaxed direction finding is optimal", "statement": "The linear subproblem of semirelaxed_cg returns a plan with row sums a minimising <Mi,G> among all non-negative plans with row sums a.", "quantifier": "all cost matrices with ties, all competing plans", "why_tests_cant": "all tie patterns", "anchors": ["ot/optim.py:semirelaxed_cg"]}
{"id": "C38", "title": "Gromov-Wasserstein loss decomposition is exact", "statement": "gwloss computed from init_matrix/tensor_product equals sum_{ijkl} L(C1_ik,C2_jl) T_ij T_kl for every T with marginals p,q, for the square loss and (without the 1e-18 guard) the KL loss.", "quantifier": "all structure matrices (symmetric or not), all plans", "why_tests_cant": "algebraic identity over all inputs", "anchors": ["ot/gromov/_utils.py:_transform_matrix,init_matrix,tensor_product,gwloss"]}
{"id": "C39", "title": "Gromov-Wasserstein gradient is the gradient", "statement": "gwggrad (symmetric case) and the symmetrised average (asymmetric case) are the gradient of the loss: the loss along any segment of couplings is the quadratic polynomial with these derivatives; the exact line search of solve_gromov_linesearch (and of the semi-relaxed and partial variants) uses its exact coefficients.", "quantifier": "all structures, plans, directions and step sizes", "why_tests_cant": "identity over all inputs", "anchors": ["ot/gromov/_utils.py:gwggrad", "ot/gromov/_gw.py:solve_gromov_linesearch", "ot/gromov/_semirelaxed.py:solve_semirelaxed_gromov_linesearch", "ot/gromov/_partial.py:solve_partial_gromov_linesearch"]}
{"id": "C40", "title": "Gromov-Wasserstein is zero on isometric relabelings", "statement": "If C2 is C1 with its nodes permuted and q is p permuted, the plan carrying mass p along the permutation is feasible and has GW loss 0, which is the minimum for the square loss.", "quantifier": "all structures, weights, permutations", "why_tests_cant": "all permutations", "anchors": ["ot/gromov/_utils.py:gwloss"]}
{"id": "C41", "title": "barycenter structure and feature updates minimise the barycenter objective", "statement": "update_barycenter_structure / update_barycenter_feature with fixed plans return the minimiser of the weighted sum of losses over all structures / features.", "quantifier": "all plans with positive barycenter weights, all competing structures", "why_tests_cant": "optimality over all competitors", "anchors": ["ot/gromov/_utils.py:update_barycenter_structure,update_barycenter_feature"]}
{"id": "C42", "title": "product divergence formulas", "statement": "div_between_product and div_to_product return the divergence between the product measures they stand for, without forming the products.", "quantifier": "all measures", "why_tests_cant": "identity over all inputs", "anchors": ["ot/gromov/_utils.py:div_between_product,div_to_product"]}
{"id": "C43", "title": "unbalanced across-spaces total cost is the documented one", "statement": "With independent regularisation the total cost reported by the fused unbalanced across-spaces solvers adds eps*KL(pi | px x py) for each plan.", "quantifier": "all plans and measures", "why_tests_cant": "identity over all inputs", "anchors": ["ot/gromov/_utils.py:fused_unbalanced_across_spaces_cost"]}
{"id": "C44", "title": "partial_wasserstein transports exactly mass m, optimally", "statement": "For a non-negative cost matrix that is not identically zero, the plan of partial_wasserstein is non-negative, has row sums <=a, column sums <=b and total mass m, and minimises <G,M> among all such plans (up to the reduced-cost tolerance of the inner solver); a mass outside [0, min(sum a, sum b)] is rejected. With negative costs the mass of the plan may differ from m.", "quantifier": "all non-negative weights, masses m, cost matrices, numbers of dummy points, all options of the inner solver", "why_tests_cant": "optimality over all partial plans and all tie breaks of the inner solver", "anchors": ["ot/partial/partial_solvers.py:partial_wasserstein"]}
{"id": "C45", "title": "partial_wasserstein_lagrange solves the Lagrangian problem", "statement": "For a non-negative cost matrix the plan of partial_wasserstein_lagrange minimises sum (M-reg_m) G over all non-negative G with row sums <=a and column sums <=b (up to the tolerance of the inner solver). With negative costs the early return makes it fail.", "quantifier": "all weights, cost matrices and multipliers", "why_tests_cant": "optimality over all partial plans", "anchors": ["ot/partial/partial_solvers.py:partial_wasserstein_lagrange"]}
{"id": "C46", "title": "entropic partial transport: mass m at every iteration, convergence to the optimum, agreement of the log-domain version", "statement": "For positive weights and 0 < m <= min(sum a, sum b): every iterate of entropic_partial_wasserstein is positive with total mass exactly m; the iterates converge to the unique minimiser of <P,M> + reg sum P log P among the partial plans of mass m; the logscale variant produces the logarithms of the same iterates; the call returns one of these iterates, and rejects masses outside [0, min(sum a, sum b)].", "quantifier": "all positive weights, costs, reg > 0, masses, iteration counts and thresholds", "why_tests_cant": "limit of an unbounded iteration, minimality over a continuum of plans", "anchors": ["ot/partial/partial_solvers.py:_entropic_partial_wasserstein_sinkhorn,entropic_partial_wasserstein_logscale"]}
{"id": "C47", "title": "partial_wasserstein_1d solves every partial problem up to the requested size", "statement": "For at most min(n,m) requested samples, partial_wasserstein_1d returns exactly that many distinct, valid indices on either side. For every t up to the request, the first t indices on either side can be matched at the cost cumsum(marginal_costs)[t-1], and no partial plan of mass t between the two samples (unit weights) is cheaper.", "quantifier": "all samples (ties included), all requested sizes", "why_tests_cant": "chain bookkeeping over all interleavings of the samples", "anchors": ["ot/partial/partial_cython.pyx:arg_insert_in_sorted,preprocess,compute_costs,insert_new_chain,generate_solution_using_marginal_costs,partial_wasserstein_1d_cy", "ot/partial/partial_solvers.py:partial_wasserstein_1d"]}
{"id": "C48", "title": "mm_unbalanced decreases its objective and converges to the minimum", "statement": "With div='kl' (guard 0) and with div='l2' (any guard eps, for the cost M+eps) every iteration of mm_unbalanced keeps the plan non-negative and does not increase the penalised objective; after n iterations the objective exceeds its value at any plan by at most C/n, for kl with reg > 0 the KL divergence to the unique minimiser shrinks by (reg_m1+reg_m2)/(reg+reg_m1+reg_m2) per iteration, and for every accuracy a small enough stopThr and enough iterations give that accuracy. With the guard the kl objective grows by at most eps*sum_r*sum(G**r) per iteration. The reported total_cost is the objective of the returned plan.", "quantifier": "all positive weights, all real costs, all reg >= 0, reg_m >= 0, all positive initial plans, all iteration numbers", "why_tests_cant": "unbounded iterations", "anchors": ["ot/unbalanced/_mm.py:mm_unbalanced"]}
{"id": "C49", "title": "unbalanced Sinkhorn converges to the unique solution of the unbalanced problem", "statement": "For positive weights, reg > 0 and each marginal parameter a non-negative number or infinite, sinkhorn_knopp_unbalanced converges from every start to the unique minimiser of <P,M> + reg KL(P|c) + reg_m1 KL(P1|a) + reg_m2 KL(P'1|b) over all non-negative plans (an infinite parameter being a marginal constraint); with a finite parameter the logarithms of the entries converge geometrically with rate fi1*fi2. For every accuracy a small enough threshold and enough iterations make the call stop by its test within that accuracy. Several histograms return the costs of the solutions with reference one. The total cost that is reported is the value of the objective.", "quantifier": "all sizes, weights, costs, parameters, starting points, accuracies, competing plans", "why_tests_cant": "optimality over all plans", "anchors": ["ot/unbalanced/_sinkhorn.py:sinkhorn_knopp_unbalanced"]}
{"id": "C50", "title": "stabilized unbalanced Sinkhorn performs the same update", "statement": "For positive weights, in terms of the total scalings (scalings times exp(absorbed potential/reg)), the u and v computed by one iteration of sinkhorn_stabilized_unbalanced are exactly those of one iteration of sinkhorn_knopp_unbalanced, whatever has been absorbed before. If tau is large enough that nothing is ever absorbed and the first iteration changes u, a small enough stopThr and enough iterations give the unique minimiser to any accuracy. Defects of the code: an absorbing iteration multiplies entry (i,j) of the plan by max(u)max(v)/v_j, and the test after the first iteration looks at u only.", "quantifier": "all absorbed potentials, all positive weights, costs, references, warm starts, thresholds", "why_tests_cant": "all absorption histories", "anchors": ["ot/unbalanced/_sinkhorn.py:sinkhorn_stabilized_unbalanced,sinkhorn_knopp_unbalanced"]}
{"id": "C51", "title": "one-dimensional unbalanced transport", "statement": "After rescale_potentials the two reweighted marginals have the same mass and the translation is the (only) maximiser of the dual objective over translations. uot_1d returns marginals that are the weights reweighted by the returned potentials, with equal masses; linear_cost is the optimal transport cost between them and total_cost the unbalanced objective of an admissible plan (up to the 1e-16 inside kl_div). As long as no two cumulative weights coincide, the potentials are dual feasible for every numItermax, their dual value is a lower bound, the dual value converges like 1/numItermax to the maximum and total_cost converges like 1/sqrt(numItermax) to the minimum.", "quantifier": "all supports, positive weights, p >= 1, rho1, rho2 (finite or infinite), every numItermax", "why_tests_cant": "identity and rate over all inputs and iteration counts", "anchors": ["ot/unbalanced/_solver_1d.py:rescale_potentials,get_reweighted_marginal_uot,uot_1d"]}
{"id": "C52", "title": "smooth dual: gradients, weak duality and recovery of the plan", "statement": "dual_obj_grad returns a concave lower bound of the regularised cost of every admissible coupling together with its gradient. Whatever potentials the optimiser stops at, the plan of get_plan_from_dual is non-negative, is the solution of the regularised problem for its own marginals, and exceeds the optimum by at most -<alpha,grad_alpha>-<beta,grad_beta>; where the gradient vanishes (in particular at every maximiser) it is the regularised optimum between a and b and the objective equals its cost. For reg_type kl, l2 and sparsity_constrained (there without uniqueness and differentiability).", "quantifier": "all potentials (every stopping point), couplings, costs, reg>0, max_nz<n", "why_tests_cant": "inequality over all couplings", "anchors": ["ot/smooth.py:dual_obj_grad,get_plan_from_dual,NegEntropy,SquaredL2"]}
{"id": "C53", "title": "semi-dual plans have exact target marginals", "statement": "Whatever the potential alpha, the plan recovered from the semi-dual is non-negative with column sums exactly b (and at most max_nz non-zeros per column), it solves the regularised problem between its own row sums and b, and exceeds the optimum by at most -<alpha,grad>; semi_dual_obj_grad returns a concave lower bound of the regularised cost and its gradient, and where it vanishes the plan is the optimum between a and b.", "quantifier": "all potentials (every stopping point), positive b, all costs, reg>0, 1<=max_nz<=n", "why_tests_cant": "all potentials (any stopping point of the optimiser)", "anchors": ["ot/smooth.py:get_plan_from_semi_dual,semi_dual_obj_grad"]}
{"id": "C54", "title": "stochastic semi-dual solvers: exact source marginal, exact running sums, convergence of averaged SGD", "statement": "For any beta the plan of solve_semi_dual_entropic is non-negative, has row sums exactly a, and is the entropic optimum between a and its own column sums; beta maximises the semi-dual exactly when the column sums are b. For any random draws the running gradient sum of SAG equals the sum of the stored gradients, each being the gradient at the last draw of its index, and the vector returned by ASGD is the arithmetic mean of its iterates. With uniform source weights the mean over the draws of the semi-dual value reached by ASGD converges to the maximum (rate log N/sqrt N); with other source weights it does not, because the draws ignore them.", "quantifier": "all costs, positive weights, regularisations, learning rates, all random index sequences of all lengths", "why_tests_cant": "a claim about every random schedule and about averages over all schedules", "anchors": ["ot/stochastic.py:c_transform_entropic,sag_entropic_transport,averaged_sgd_entropic_transport,solve_semi_dual_entropic"]}
{"id": "C55", "title": "wasserstein1_circle is the circular W1 distance", "statement": "wasserstein1_circle returns the least transport cost, for the length of the shorter arc, over all couplings of the two weighted samples; in particular it is symmetric.", "quantifier": "all samples on the circle and weights", "why_tests_cant": "all configurations", "anchors": ["ot/lp/solver_circle.py:wasserstein1_circle"]}
{"id": "C56", "title": "semidiscrete circle distance is the least transport cost to the uniform measure", "statement": "semidiscrete_wasserstein2_unif_circle returns the least cost, for the squared arc length, of a transport plan between the weighted samples and the uniform measure of the circle, whatever the order in which the samples are given.", "quantifier": "all weighted samples and permutations", "why_tests_cant": "tests use uniform weights", "anchors": ["ot/lp/solver_circle.py:semidiscrete_wasserstein2_unif_circle"]}
{"id": "C57", "title": "linear circular embedding uses the quantiles of its input", "statement": "linear_circular_embedding evaluated at x is the quantile of level x - mean + 1/2 (modulo 1) of the weighted samples, minus x; linear_circular_ot is the mean squared arc distance between two embeddings: non-negative, symmetric, zero on equal arguments and independent of the order of the samples.", "quantifier": "all measures with at least two atoms", "why_tests_cant": "index shift hidden by large sample sizes", "anchors": ["ot/lp/solver_circle.py:linear_circular_embedding,linear_circular_ot", "ot/lp/solver_1d.py:quantile_function"]}
{"id": "C58", "title": "multi-marginal greedy solver is optimal", "statement": "dmmot_monge_1dgrid_loss terminates, returns a multi-marginal plan with the given marginals whose cost is the returned value and is minimal among all tensors with these marginals, and its dual objective equals its primal objective. If no histogram vanishes on the last bin its dual variables are feasible and a subgradient of the value; otherwise they need not be (refuted). renormalize returns probability vectors.", "quantifier": "all numbers of histograms and bins, all non-negative histograms of equal mass", "why_tests_cant": "optimality against all tensors; all tie patterns, numbers of histograms and bins", "anchors": ["ot/lp/dmmot.py:dmmot_monge_1dgrid_loss"]}
{"id": "C59", "title": "gromov_wasserstein2 gradients with respect to the structures", "statement": "For the square loss the matrices gC1, gC2 that gromov_wasserstein2 attaches as gradients are the derivatives of the GW loss of the returned plan with respect to C1 and C2 (symmetric or not), in every direction.", "quantifier": "all structures, plans, directions", "why_tests_cant": "a derivative is a statement about all directions and step sizes", "anchors": ["ot/gromov/_gw.py:gromov_wasserstein2"]}
{"id": "C60", "title": "unbalanced across-spaces: each block update minimises the joint objective over that block", "statement": "In fused_unbalanced_across_spaces_divergence the unbalanced OT problem handed to ot.solve for the sample (feature) plan differs from the documented joint objective, seen as a function of that plan, only by a constant; hence a block update never increases the documented objective.", "quantifier": "all data, weights, fixed plans, competing plans; both divergences and both regularisation types", "why_tests_cant": "equality of two objectives up to a constant for all plans", "anchors": ["ot/gromov/_unbalanced.py:fused_unbalanced_across_spaces_divergence", "ot/gromov/_utils.py:uot_cost_matrix,uot_parameters_and_measures"]}
{"id": "C61", "title": "rescale_plan gives both plans the same mass", "statement": "With rescale_plan=True the sample and feature plans returned by the unbalanced across-spaces solvers have equal mass.", "quantifier": "all inputs", "why_tests_cant": "documented guarantee for all iterates", "anchors": ["ot/gromov/_unbalanced.py:fused_unbalanced_across_spaces_divergence"]}
{"id": "C62", "title": "ot.emd end to end on a dense matrix", "statement": "For nonnegative weights with positive masses and nonnegative costs, ot.emd(a, b, M, log=True) either raises because the masses differ by more than the tolerance of the check (and the check is on), or returns. A result without warning carries a plan with marginals a and b (b scaled to the mass of a) that is optimal up to the solver's relative tolerance, dual potentials u, v with u_i + v_j <= M_ij up to the same tolerance at all points including those of weight zero, and a cost equal to both the cost of the plan and the value of the potentials. The only possible warning is the iteration limit; then the plan is nonnegative and its marginals do not exceed a and b.", "quantifier": "all sizes, nonnegative weights (zeros allowed), nonnegative costs, iteration limits, block sizes and initial pivot choices", "why_tests_cant": "The solver's path depends on every input; tests check a few instances and cannot exclude a wrong status or an uncertified plan on others.", "anchors": ["ot/lp/_network_simplex.py:emd", "ot/lp/EMD_wrapper.cpp:EMD_wrap", "ot/lp/network_simplex_simple.h:run"]}
{"id": "C63", "title": "ot.emd on a sparse cost matrix", "statement": "When the cost matrix is given as a list of entries, only listed entries may carry mass. If the weights can be transported along these edges, ot.emd returns a plan on the edges with exact marginals that is optimal (up to solver tolerance) among all plans on the edges, with its cost and certifying dual potentials, or warns that the iteration limit was reached; it never reports infeasibility. If it reports infeasibility no such plan exists. A result without warning never misses a marginal by more than the feasibility tolerance.", "quantifier": "all edge lists (repeated entries allowed), all nonnegative weights with positive mass, all nonnegative costs", "why_tests_cant": "Feasibility on a sparse graph is a global (Hall-type) condition and the artificial arc cost must dominate every path: tests on sample graphs cannot show that the constant used suffices for every graph.", "anchors": ["ot/lp/_network_simplex.py:emd", "ot/lp/emd_wrap.pyx:emd_c_sparse", "ot/lp/EMD_wrapper.cpp:EMD_wrap_sparse", "ot/lp/network_simplex_simple.h:init"]}
{"id": "C64", "title": "translation invariant unbalanced Sinkhorn reaches the minimiser for equal parameters", "statement": "For positive weights and reg_m1 = reg_m2 = r > 0, or reg_m1 finite and reg_m2 = inf, or both infinite with equal masses, sinkhorn_unbalanced_translation_invariant converges to the unique minimiser of the unbalanced entropic problem; a small enough stopThr and enough iterations give it to any accuracy. Defects of the code: for reg_m1 = inf and finite reg_m2 the limit is the minimiser divided by sum(a), and for different finite parameters the limit is not the minimiser.", "quantifier": "all positive weights, costs, reg > 0, references, positive warm starts, accuracies", "why_tests_cant": "convergence for all inputs is a limit statement over unboundedly many iterations", "anchors": ["ot/unbalanced/_sinkhorn.py:sinkhorn_unbalanced_translation_invariant"]}
{"id": "C65", "title": "dual potentials in one dimension", "statement": "emd_1d_dual_backprop returns the optimal transport cost and potentials f, g with sum(f*u)+sum(g*v) equal to it and both sums equal. When no interior cumulative weights of the two measures coincide, f and g satisfy every dual constraint, so they are an optimal dual pair.", "quantifier": "all supports, all non-negative weights of equal mass (positive for the second part), all p >= 1", "why_tests_cant": "identity and inequality over all inputs; the derivative of sorting is only right away from ties", "anchors": ["ot/lp/solver_1d.py:emd_1d_dual_backprop,wasserstein_1d", "ot/lp/_network_simplex.py:center_ot_dual"]}
{"id": "C66", "title": "dual losses, plans and batch gradients of the stochastic module", "statement": "loss_dual_entropic + reg and loss_dual_quadratic are lower bounds of the regularised transport cost of every coupling, attained exactly at the coupling given by plan_dual_entropic / plan_dual_quadratic; whatever the potentials these plans are the unique minimisers among plans with the same marginals; the derivatives of the losses are the marginal errors of the plans. The batch gradient used by solve_dual_entropic, averaged over all batches of size s, is s^2/(nm) times that derivative, and each iteration adds lr/sqrt(k) times it.", "quantifier": "all potentials, costs, positive weights, regularisations, batch sizes and batch sequences", "why_tests_cant": "duality holds against every coupling; unbiasedness is an average over all batches", "anchors": ["ot/stochastic.py:batch_grad_dual,sgd_entropic_regularization,solve_dual_entropic,loss_dual_entropic,plan_dual_entropic,loss_dual_quadratic,plan_dual_quadratic"]}
{"id": "C67", "title": "binary_search_circle / wasserstein_circle", "statement": "For p >= 1 and two weighted point sets on the circle with non-negative weights of total one, the search ends; the returned value is never below the cheapest plan for the cost (arc length)^p, exceeds it by at most p*3^(p-1)*eps/max(Lm,Lp), and equals it when the derivative test stopped the search. Consequently the value is, up to that error, symmetric in its two measures and independent of the sorting order of ties.", "quantifier": "all numbers of atoms, all positions (taken modulo one), all non-negative weights of total one, all p >= 1, all tolerances and bounds L > 0, default search interval", "why_tests_cant": "the optimum is over all couplings on a circle and the bisection path depends on every input value; tests compare with a few linear programs", "anchors": ["ot/lp/solver_circle.py:binary_search_circle", "ot/lp/solver_circle.py:wasserstein_circle", "ot/lp/solver_circle.py:derivative_cost_on_circle", "ot/lp/solver_circle.py:ot_cost_on_circle", "ot/lp/solver_circle.py:roll_cols"]}
{"id": "C68", "title": "ot.lp.barycenter's linear program yields a Wasserstein barycenter", "statement": "For histograms of equal mass, any solution of the linear program that ot.lp.barycenter builds gives a vector that can be reached from every histogram and minimises the weighted sum of transport costs over all histograms; where the coefficient is positive the plan in the solution is optimal; the program is feasible for non-negative histograms and excludes no barycenter.", "quantifier": "all numbers of histograms and bins, all cost matrices, coefficients and equal-mass histograms, all LP solutions", "why_tests_cant": "A test compares one solution with one solver; minimality is over all histograms and all plans, and the equations dropped for full rank must be implied.", "anchors": ["ot/lp/_barycenter_solvers.py:barycenter"]}
{"id": "C69", "title": "free_support_barycenter never increases the barycenter energy and stops", "statement": "With exact inner transport the weighted sum of squared Wasserstein distances at the returned positions, plus min(b) times the sum of logged squared displacements, is at most the initial one; all displacements but the last exceed stopThr; the loop ends by the threshold once numItermax*stopThr*min(b) exceeds the initial energy.", "quantifier": "all target measures, positive weights b, coefficients on the simplex, initial positions, thresholds and iteration limits", "why_tests_cant": "Descent must hold along every run and for every number of iterations.", "anchors": ["ot/lp/_barycenter_solvers.py:free_support_barycenter"]}
{"id": "C70", "title": "generalized_free_support_barycenter does not worsen the generalized barycenter objective", "statement": "The returned measure has a weighted sum of squared Wasserstein distances between targets and projections that is not larger than at Y_init, for the given coefficients.", "quantifier": "all targets, linear projections with invertible A, coefficients, weights, initial positions", "why_tests_cant": "The equivalence with an ordinary barycenter problem rests on an identity over all plans; tests with uniform weights do not see the coefficients.", "anchors": ["ot/lp/_barycenter_solvers.py:generalized_free_support_barycenter"]}
{"id": "C71", "title": "NorthWestMMGluing glues plans exactly; the generic-cost fixed point never increases the energy", "statement": "The gluing ends, returns distinct index tuples with positive weights, is the marginal of a tensor whose (i, j_k) marginals are the given plans, and has at most n + sum n_k - K points for basic plans. With an exact ground barycenter the fixed-point method (with or without merging of equal points) has a non-increasing V_list ending with the energy of the returned measure of unchanged mass, and reports Stationary Point exactly when the last decrease is below stopThr; the barycentric-projection method does so for quadratic costs. The clean-up keeps mass and leaves every point once.", "quantifier": "all numbers and sizes of plans with equal first marginals, all costs, measures, iteration limits and thresholds", "why_tests_cant": "The gluing loop's invariants and the energy descent quantify over all plans and histories.", "anchors": ["ot/lp/_barycenter_solvers.py:NorthWestMMGluing", "ot/lp/_barycenter_solvers.py:free_support_barycenter_generic_costs", "ot/lp/_barycenter_solvers.py:_clean_discrete_measure", "ot/lp/_barycenter_solvers.py:ot_barycenter_energy"]}
{"id": "C72", "title": "co_optimal_transport returns couplings, never increases its objective, and reports it", "statement": "With exact inner solvers both returned plans are couplings, their objective is at most that of the start, the recorded distances never increase and lie between the two, and the feature plan is optimal for the sample plan; with eval_bcd=1 co_optimal_transport2 returns the objective of the returned plans; an early exit means the sample plan or the distance moved less than its tolerance; a stationary sample plan means neither plan can be improved alone; the gradients in X and Y are exact for fixed plans.", "quantifier": "all data matrices, weights, penalties, starts, iteration limits, evaluation periods and tolerances", "why_tests_cant": "The descent must hold along every run; tests check a few data sets, usually with the default eval_bcd and enough iterations to hide a stale value.", "anchors": ["ot/coot.py:co_optimal_transport", "ot/coot.py:co_optimal_transport2"]}
{"id": "C73", "title": "weak_optimal_transport minimises the barycentric weak cost", "statement": "df is the exact gradient of the weak cost; the linear problem at any coupling bounds the cost of all couplings from below; a coupling is a global minimiser exactly when it solves that problem at itself; the returned plan is a coupling whose cost is the last recorded loss and at most that of the start; the weak cost is at most the quadratic cost and vanishes exactly for martingale plans.", "quantifier": "all positive weights, points, starts, iteration limits and tolerances", "why_tests_cant": "Global minimality and the gap bound quantify over all couplings.", "anchors": ["ot/weak.py:weak_optimal_transport"]}
{"id": "C74", "title": "factored_optimal_transport returns factored couplings with a non-increasing objective", "statement": "The returned plans couple a, the uniform weights and b; the template is the best one for the plans; the objective plus 2/r times the squared displacements never exceeds the initial one, so the loop stops by the threshold for large numItermax; lazy_plan is a coupling of a and b with quadratic cost at most twice the sum of the two costs; costa+costb exceed the final cost by exactly 2/r times the last squared displacement.", "quantifier": "all samples, weights, ranks, penalties, initial templates, thresholds and iteration limits", "why_tests_cant": "Descent and termination hold along every run; lazy_plan's marginals for every rank.", "anchors": ["ot/factored.py:factored_optimal_transport"]}
{"id": "C75", "title": "sliced and max-sliced Wasserstein distances are the exact projected distances and behave as distances", "statement": "sliced_wasserstein_distance returns the p-mean, max_sliced_wasserstein_distance the maximum, of the exact one-dimensional Wasserstein distances of the projected samples, whatever the order of ties in the sorts. Both are non-negative, symmetric, zero between a weighted sample and itself, satisfy the triangle inequality over common directions and are unchanged by a common translation; for directions of norm at most one sliced <= max-sliced <= Wasserstein distance in the original space. get_random_projections returns unit vectors.", "quantifier": "all samples of all sizes and dimensions, all non-negative weights of equal mass, all p >= 1, all families of directions, all outcomes of the sorts", "why_tests_cant": "The triangle inequality and the comparison with the Wasserstein distance quantify over all triples of samples and all couplings; optimality of each projected value is a statement about all couplings.", "anchors": ["ot/sliced/_sliced_distances.py:sliced_wasserstein_distance", "ot/sliced/_sliced_distances.py:max_sliced_wasserstein_distance", "ot/sliced/_utils.py:get_random_projections"]}
{"id": "C76", "title": "sliced plans are couplings with the reported costs and the best one is returned", "statement": "Every plan of sliced_plans is a coupling of the weights, optimal for the projected samples; min_sliced_transport_plan returns the cheapest of these plans together with its transport cost in the original space; expected_sliced_plan returns their mean with the documented weights, a coupling, and its cost; the result does not depend on batch_size.", "quantifier": "all samples, weights of equal mass, directions, metrics, batch sizes and beta", "why_tests_cant": "The plans must have exact marginals for every size and every weight vector, and the reported cost must match for every input, including samples of different sizes and non-uniform weights.", "anchors": ["ot/sliced/_sliced_plans.py:sliced_plans", "ot/sliced/_sliced_plans.py:min_sliced_transport_plan", "ot/sliced/_sliced_plans.py:expected_sliced_plan", "ot/utils.py:sparse_ot_dist"]}
{"id": "C77", "title": "Linear Monge mapping between Gaussians", "statement": "ot.gaussian.bures_wasserstein_mapping(ms, mt, Cs, Ct) returns (A, b) with A symmetric positive definite, x ↦ xA + b sends the mean ms to mt and the covariance Cs to Ct (AᵀCsA = Ct), and the joint covariance (Cs, CsA, Ct) minimises tr(Cs + Ct − 2K) over all joint covariances: no coupling is cheaper. empirical_bures_wasserstein_mapping applied to weighted samples sends the weighted mean of the source to that of the target, and its weighted covariance (+ reg·I) to that of the target (+ reg·I).", "quantifier": "all dimensions, means, positive definite covariances, all weighted samples (positive total weight), all reg ≥ 0 with a positive definite regularised source covariance", "why_tests_cant": "The optimality is over all joint covariance matrices; tests check a sample of transported moments.", "anchors": ["ot/gaussian.py::bures_wasserstein_mapping", "ot/gaussian.py::empirical_bures_wasserstein_mapping"]}
{"id": "C78", "title": "Bures-Wasserstein distance is the optimal value and a metric", "statement": "bures_distance(Cs, Ct)² is the greatest lower bound (attained for invertible Cs) of tr(Cs + Ct − 2K) over all joint covariances; bures_wasserstein_distance² adds |ms − mt|². Both are metrics on (means,) positive semidefinite matrices: nonnegative, symmetric, triangle inequality, zero only at equal arguments. The empirical distance is a lower bound of the exact transport cost between the weighted samples for the squared Euclidean cost. With paired=True entry i is the distance of the i-th pair.", "quantifier": "all dimensions, means, positive semidefinite covariances; all weighted samples and couplings; the paired claim ranges over all batch shapes", "why_tests_cant": "The triangle inequality and the greatest lower bound range over all triples of matrices and all joint covariances.", "anchors": ["ot/gaussian.py::bures_distance", "ot/gaussian.py::bures_wasserstein_distance", "ot/gaussian.py::empirical_bures_wasserstein_distance"]}
{"id": "C79", "title": "Barycenters of Gaussians", "statement": "The fixed points of the iteration of bures_barycenter_fixpoint are the unique Bures barycenter. The loop always returns a positive definite matrix C, and when it stops with difference ≤ eps its objective exceeds that of any covariance B by at most eps·|R⁻¹BR⁻¹ − 1| with R = C^(1/2). Gradient descent with step t in [0,1] keeps the covariance positive definite and decreases the objective at every step by at least t(2−t)·tr(G C G), so the smallest gradient after N steps is O(1/N); its direction is the gradient of the convex objective, so a zero gradient certifies the barycenter. Stochastic and averaged runs stay positive definite whatever batches are drawn. Together with the weighted mean the covariance minimises the weighted sum of squared distances.", "quantifier": "all dimensions, weights ≥ 0 with sum 1, positive definite covariances, steps, iteration counts and drawn batches", "why_tests_cant": "Optimality ranges over all positive semidefinite matrices; the descent and positivity claims over all iteration counts and random histories.", "anchors": ["ot/gaussian.py::bures_barycenter_fixpoint", "ot/gaussian.py::bures_barycenter_gradient_descent", "ot/gaussian.py::bures_wasserstein_barycenter"]}
{"id": "C80", "title": "Gaussian Gromov-Wasserstein", "statement": "gaussian_gromov_wasserstein_distance(Cs, Ct)² is the smallest value of the Gaussian Gromov-Wasserstein objective 4(tr Cs − tr Ct)² + 8|Cs|² + 8|Ct|² − 16|K|² over all joint covariances K, also for different dimensions. gaussian_gromov_wasserstein_mapping returns (A, b) sending mean and covariance of the source to those of the target with an optimal joint covariance, for every choice of signs ±1, and therefore also with sign_eigs='skewness'.", "quantifier": "all dimensions, positive (semi)definite covariances, all valid eigendecompositions returned by eigh, all signs and samples", "why_tests_cant": "The minimum ranges over all joint covariances and the claim over all bases an eigensolver may return.", "anchors": ["ot/gaussian.py::gaussian_gromov_wasserstein_distance", "ot/gaussian.py::gaussian_gromov_wasserstein_mapping", "ot/gaussian.py::empirical_gaussian_gromov_wasserstein_mapping"]}
{"id": "C81", "title": "Optimal transport between Gaussian mixtures", "statement": "gaussian_pdf and gmm_pdf are densities with the stated mass, mean and covariance, and the Gaussian map of bures_wasserstein_mapping transports one density to the other. dist_bures_squared is the squared Wasserstein distance between components, gmm_ot_loss is the least cost of a coupling of the component weights and gmm_ot_plan attains it; its square root is nonnegative, symmetric, satisfies the triangle inequality, vanishes exactly when both mixtures give the same total weight to every Gaussian, and dominates the distance of the mixtures seen through their first two moments. gmm_ot_apply_map with method 'bary' is the conditional mean of the component maps under the posterior weights, and with method 'rand' it draws from a probability vector supported on coupled pairs whose mean is the 'bary' map.", "quantifier": "all dimensions, numbers of components, positive (semi)definite covariances, mixture weights and points; every exact plan solver", "why_tests_cant": "Optimality, the metric axioms and the integrals range over all mixtures and all points.", "anchors": ["ot/gmm.py::gaussian_logpdf", "ot/gmm.py::gmm_pdf", "ot/gmm.py::dist_bures_squared", "ot/gmm.py::gmm_ot_loss", "ot/gmm.py::gmm_ot_plan", "ot/gmm.py::gmm_ot_apply_map"]}
{"id": "C82", "title": "Barycenters of Gaussian mixtures", "statement": "An iteration of gmm_barycenter_fixed_point does not increase the weighted sum of the mixture losses to the given mixtures, for both projection methods and all weights w_bar of the barycenter.", "quantifier": "all numbers of mixtures and components, dimensions, weights, starting points", "why_tests_cant": "Descent must hold from every starting mixture and for every family of plans.", "anchors": ["ot/gmm.py::gmm_barycenter_fixed_point"]}
{"id": "C83", "title": "Entropic Wasserstein barycenters", "statement": "barycenter(A, M, reg, weights, method) minimises the weighted sum of the entropy-regularised transport costs to the histograms of A: the minimiser is unique, the results of the iteration converge to it as numItermax grows, the stopping test is met after finitely many iterations, and a result accepted with stopThr tending to 0 is close to it.", "quantifier": "all histogram sets, costs, reg > 0, positive weights, tolerances, iteration limits, absorption thresholds", "why_tests_cant": "Convergence for every kernel and every weight vector, and the meaning of an accepted result, cannot be sampled; the wrong limits for non-uniform weights look like plausible histograms.", "anchors": ["ot/bregman/_barycenter.py::barycenter", "ot/bregman/_barycenter.py::barycenter_sinkhorn", "ot/bregman/_barycenter.py::_barycenter_sinkhorn_log", "ot/bregman/_barycenter.py::barycenter_stabilized", "ot/bregman/_utils.py::geometricBar"]}
{"id": "C84", "title": "Debiased (Sinkhorn divergence) barycenters", "statement": "barycenter_debiased(A, M, reg, weights, method): if the results converge to a positive vector as numItermax grows, that vector is a histogram that minimises the weighted sum of the Sinkhorn divergences to the histograms of A over all histograms (for symmetric M with positive semidefinite kernel), it is the only minimiser when the kernel is positive definite, and with any stopThr > 0 the stopping test is then met after finitely many iterations.", "quantifier": "all finite supports, symmetric costs with positive semidefinite kernel, histogram sets (zeros allowed in the plain method), weights, reg > 0, all limits", "why_tests_cant": "Global optimality of a non-linear functional (it contains W(q,q)) over all histograms cannot be sampled.", "anchors": ["ot/bregman/_barycenter.py::barycenter_debiased", "ot/bregman/_barycenter.py::_barycenter_debiased", "ot/bregman/_barycenter.py::_barycenter_debiased_log"]}
{"id": "C85", "title": "ot.solve: plan, value, potentials for every option", "statement": "ot.solve(M, a, b, reg, c, reg_type, unbalanced, unbalanced_type, ...): without regularisation and balanced, the plan is an optimal coupling (up to the pivot tolerance) or the iteration limit was reached, value = value_linear is its cost, and the potentials certify it. With reg_type 'KL' or 'entropy' the plans converge to the unique minimiser of the documented objective, value_linear and value to its linear cost and its objective, and the potentials to the dual optimum. With a pair (f, df) the plan is a coupling with value <M,T> + reg f(T) not larger than at the start. With reg_type 'L2' value is the minimum of the quadratically regularised objective. In the unbalanced cases the plan approaches the minimiser and value is its objective. NotImplementedError is raised exactly for unknown types.", "quantifier": "all cost matrices, weights, regularisation strengths, reference measures, initialisations, iteration limits and tolerances, all combinations of options", "why_tests_cant": "The options form a large product of branches; that the number in res.value is the minimum of the documented objective needs optimality over all plans.", "anchors": ["ot/solvers.py::solve", "ot/backend.py::kl_div"]}
{"id": "C86", "title": "ot.solve: envelope gradients", "statement": "With grad='envelope' the gradients attached to res.value with respect to M, a and b are the derivatives of the optimal value: the plan for M, and for a and b vectors whose linear function supports the optimal value over all weights of the same mass.", "quantifier": "all cost matrices, positive weights, reg > 0, all perturbed weights of the same mass", "why_tests_cant": "A gradient check by finite differences tests a few points; the missing dependence of the KL reference on the weights is invisible when only the plan is compared.", "anchors": ["ot/solvers.py::solve"]}
{"id": "C87", "title": "Entropic Gromov-Wasserstein solvers: feasibility, descent, stopping, stationarity", "statement": "With exact inner Sinkhorn solves, `entropic_gromov_wasserstein` and `entropic_fused_gromov_wasserstein` return couplings of p and q whatever the start; the reported distance is the (fused) cost of the plan and the reported parts add up to it. With solver PGD, if epsilon is at least twice alpha times the total mass times the curvature of the energy (at most half the product of the ranges of C1 and C2 for the square loss, zero for squared Euclidean distances), more iterations never increase the regularised objective, the stopping test is met after O(1/tol^2) iterations, and the plan accepted is stationary up to a multiple of tol. With solver PPA the same holds for the unregularised cost with half the bound.", "quantifier": "all structures (symmetric or not), features, positive weights, alpha, epsilon, losses with a product decomposition (square and KL), tolerances, iteration limits, starts, exact inner solvers", "why_tests_cant": "Descent and termination depend on epsilon against the geometry of the data; tests run a few data sets and cannot show where the iteration starts to cycle.", "anchors": ["ot/gromov/_bregman.py:entropic_gromov_wasserstein", "ot/gromov/_bregman.py:entropic_fused_gromov_wasserstein", "ot/gromov/_bregman.py:entropic_fused_gromov_wasserstein2"]}
{"id": "C88", "title": "Entropic semi-relaxed Gromov-Wasserstein: feasibility, descent and stopping", "statement": "Every plan computed by `entropic_semirelaxed_gromov_wasserstein` and its fused version from a positive start with row sums p is positive with row sums exactly p, and lin_loss and quad_loss are the two parts of its fused cost. If epsilon is at least alpha times the total mass times half the range of the loss over the two structures, more iterations never increase the unregularised cost, and the stopping test is met after O(1/tol^2) iterations.", "quantifier": "all structures (symmetric or not), features, positive weights, alpha, epsilon, losses with a product decomposition, tolerances, iteration limits, positive starts", "why_tests_cant": "The parameter epsilon is only a step size here; whether the cost decreases for all data cannot be sampled.", "anchors": ["ot/gromov/_semirelaxed.py:entropic_semirelaxed_gromov_wasserstein", "ot/gromov/_semirelaxed.py:entropic_semirelaxed_fused_gromov_wasserstein"]}
{"id": "C89", "title": "Entropic partial (fused) Gromov-Wasserstein: feasibility, descent, stopping, stationarity, role of the features", "statement": "entropic_partial_gromov_wasserstein rejects a mass below zero or above the total weights; otherwise, whatever the start, the plan it returns after at least one iteration is nonnegative, does not exceed the marginals and moves exactly the mass m. The reported value is the Gromov-Wasserstein energy of the plan. When reg is at least the mass times the range of the loss, more iterations never increase energy + reg*sum T log T; above that bound the stopping test is met after O(1/tol^2) iterations, and an accepted plan is stationary up to a multiple of tol. entropic_partial_fused_gromov_wasserstein solves the same problem with a feature cost, so the plan depends on the features (false of the code: the plan is the same for every feature matrix, because the gradient adds the number sum(G*M) instead of the matrix M).", "quantifier": "all sizes, structures, weights, masses, both losses, both symmetry branches, all starts, reg, numbers of iterations and tolerances; the inner entropic partial problem solved exactly (for the last claim: the loop solver used by the code, for any number of inner iterations)", "why_tests_cant": "The descent condition and the O(1/tol^2) bound hold for every instance of every size; a run can only show one trajectory. That the features are ignored is an equality between the results for all pairs of matrices.", "anchors": ["ot/gromov/_partial.py:entropic_partial_gromov_wasserstein", "ot/gromov/_partial.py:entropic_partial_fused_gromov_wasserstein", "ot/gromov/_partial.py:entropic_partial_gromov_wasserstein2", "ot/gromov/_partial.py:entropic_partial_fused_gromov_wasserstein2"]}
{"id": "C90", "title": "ot.solve_gromov: plan, values and options", "statement": "ot.solve_gromov(Ca, Cb, M, a, b, loss, alpha, reg, unbalanced, unbalanced_type, ...): without regularisation the plan is feasible for the chosen problem (balanced, semi-relaxed or partial with the given mass), value is its documented fused objective, at most that of the start, value_quad is alpha times its structure energy and value_linear, when present, (1-alpha) times its linear cost; with alpha = 0 the balanced call is an exact transport problem. With reg the plan is feasible, value = objective + reg * guarded negative entropy, and without features and with reg above twice the mass times the curvature more of the run never increases the regularised objective. A mass that cannot be moved raises an exception, and the unsupported combinations raise NotImplementedError, exactly. Missing weights mean uniform weights. The parameters reg, tol and plan_init have their documented effect.", "quantifier": "all structures, features, positive weights, losses L2 and KL, alpha, reg, problem kinds, methods, iteration limits, starts, exact inner solvers", "why_tests_cant": "The wrapper has some twelve branches chosen by combinations of options; tests compare a few with the solvers themselves. That an argument is dropped on the way (epsilon, tol) only shows in the optimum reached.", "anchors": ["ot/solvers.py:solve_gromov", "ot/gromov/_gw.py", "ot/gromov/_semirelaxed.py", "ot/gromov/_partial.py", "ot/gromov/_bregman.py"]}
{"id": "C91", "title": "Domain adaptation estimators map samples and labels by conditional means", "statement": "For a fitted transport estimator, transform on the training samples returns, for every sample with mass, the mean of the target samples weighted by its row of the coupling: the unique minimiser of the expected squared distance, inside the convex hull of the targets, with the overall mean of the targets preserved; a new sample is displaced like its nearest training sample, independently of the batch size and of the other samples of the call, and distinct training samples get the same image in every call. inverse_transform does the same with columns and undoes transform for assignments. The continuous map of SinkhornTransport agrees with the coupling of fit on training samples after any number of iterations, is continuous and stays in the hull. transform_labels returns class probabilities whose weighted sum is the source mass of the class.", "quantifier": "all couplings, samples, labels, batch sizes, metrics, normalisations, iteration counts", "why_tests_cant": "every coupling, sample set, batch size and query is allowed; tests look at shapes on a few random inputs", "anchors": ["ot/da.py:BaseTransport.transform", "ot/da.py:BaseTransport.inverse_transform", "ot/da.py:BaseTransport.transform_labels", "ot/da.py:BaseTransport.inverse_transform_labels", "ot/da.py:SinkhornTransport.transform", "ot/da.py:SinkhornTransport.inverse_transform", "ot/utils.py:cost_normalization"]}
{"id": "C92", "title": "Semi-supervised fit: labels change the cost", "statement": "When both label vectors are given, fit sets the cost between labelled samples of different classes to limit_max times the largest cost, leaves all other costs alone, and does not change the parameter limit_max.", "quantifier": "all costs, labels, values of limit_max", "why_tests_cant": "the claim is about every pair of labels; the existing test asserts that nothing changes", "anchors": ["ot/da.py:BaseTransport.fit"]}
{"id": "C93", "title": "sinkhorn_lpl1_mm decreases the concave group penalty", "statement": "With exact inner solves, sinkhorn_lpl1_mm returns a coupling for every numItermax >= 1 (the first iteration is plain Sinkhorn), and every further outer iteration decreases <M,P> + reg sum P log P + eta sum_{j,c} sqrt(eps + mass of class c sent to j) by at least reg/(2 mass) times the squared l1 distance of the two plans.", "quantifier": "all costs, labels, weights, eta >= 0, reg > 0, iterations", "why_tests_cant": "unbounded number of outer iterations; the decrease rests on concavity for all plans", "anchors": ["ot/da.py:sinkhorn_lpl1_mm"]}
{"id": "C94", "title": "emd_laplace: objective, gradient, descent and optimality gap", "statement": "emd_laplace minimises <M,P> + eta Omega(P), Omega = (1-alpha)/ns^2 sum S_ij |T(x_i)-T(x_j)|^2 + alpha/nt^2 (same for targets); the gradient is exact and the problem convex; every iterate is a coupling, the recorded losses are the objective and never increase, and the linearised problem bounds the distance to the minimum. With reg='disp' displacements replace images.", "quantifier": "all samples, similarities, plans, alpha in [0,1], eta >= 0, iterations", "why_tests_cant": "exact identities over all plans and unbounded iterations", "anchors": ["ot/da.py:emd_laplace", "ot/utils.py:laplacian", "ot/utils.py:kernel"]}
{"id": "C95", "title": "Generalised conditional gradient and group lasso", "statement": "gcg (and sinkhorn_l1l2_gl) minimise <M,P> + reg1 sum P log P + reg2 f(P) over couplings: the iterates are couplings, the recorded losses are this objective, the gap of the linearised entropic problem bounds the distance to the minimum, a plan returned unchanged by the inner solver is a minimiser, and for the group lasso the gradient is a subgradient up to the clipping.", "quantifier": "all costs, convex f with subgradients, starts, line searches with sufficient decrease, iterations", "why_tests_cant": "unbounded iterations, all convex regularisers and starts", "anchors": ["ot/optim.py:gcg", "ot/optim.py:generic_conditional_gradient", "ot/da.py:sinkhorn_l1l2_gl"]}
{"id": "C96", "title": "Joint estimation of a plan and a map", "statement": "joint_OT_mapping_linear and joint_OT_mapping_kernel (with or without bias) terminate and return a coupling together with the optimal map for it; the recorded losses are the documented joint objective (data fit of the images to n_s times the barycentric sums, transport cost, squared distance of the matrix to the identity or RKHS norm), they never increase, and the joint objective of the result exceeds its minimum over all couplings and all maps by at most mu times the gap of the linearised transport problem.", "quantifier": "all sample sets, mu > 0, eta > 0, bandwidths, iteration limits, line searches with sufficient decrease", "why_tests_cant": "all samples and all (continuous) competitors; global optimality of an alternating scheme", "anchors": ["ot/mapping.py:joint_OT_mapping_linear", "ot/mapping.py:joint_OT_mapping_kernel", "ot/utils.py:kernel"]}
{"id": "C97", "title": "Nearest Brenier potentials", "statement": "For 0 < l < L every l-strongly convex, L-smooth potential satisfies the constraints of nearest_brenier_potential_fit; conversely fitted values and gradients of one class satisfy the strong convexity, smoothness, monotonicity and Lipschitz inequalities; the transport cost reported per iteration never increases and no regular potential beats it for the plan of that iteration; the predicted bounds enclose every regular potential interpolating the fit, and coincide with the fit at the training samples.", "quantifier": "all samples, classes, weights, constants 0 < l < L, queries, iterations", "why_tests_cant": "all potentials and all queries; the competitors are functions", "anchors": ["ot/mapping.py:nearest_brenier_potential_fit", "ot/mapping.py:_ssnb_qcqp_constants", "ot/mapping.py:nearest_brenier_potential_predict_bounds"]}
{"id": "C98", "title": "Barycenters of unbalanced entropic transport", "statement": "barycenter_unbalanced_sinkhorn converges to the barycenter: for non-negative histograms (none zero) and positive weights of sum one, the weighted sum over the histograms of <P,M> + reg KL(P|1) + reg_m KL(P1|A) + reg_m KL(P^T 1|q) has exactly one minimiser (q, plans), q is positive, every run from positive scalings converges to it, each iterate is the weighted mean of the second marginals of its plans, no numerical exit happens and a positive threshold is always met. barycenter_unbalanced_stabilized computes the same iterations except that an absorption replaces the scalings of all histograms by their maximum; with finitely many absorptions it converges to the same barycenter.", "quantifier": "all histograms, costs, positive reg, reg_m, weights of sum one, positive starts, iteration counts, thresholds", "why_tests_cant": "convergence to a global minimiser for every input is a limit statement; tests compare marginals on one example", "anchors": ["ot/unbalanced/_sinkhorn.py:barycenter_unbalanced_sinkhorn", "ot/unbalanced/_sinkhorn.py:barycenter_unbalanced_stabilized"]}
{"id": "C99", "title": "The regularisation path of quadratically penalised unbalanced transport is optimal at every parameter", "statement": "regularization_path(a, b, C, reg, semi_relaxed=False) turns min <C,T> gamma + 1/2 |T1 - a|^2 + 1/2 |T'1 - b|^2 over T >= 0 into an equivalent regression problem, keeps the exact inverse of the active Gram matrix through its rank-one updates, and returns lists from which compute_transport_plan gives, for every gamma >= reg, a minimiser at gamma; the parameters are strictly decreasing and end with reg.  This needs positive costs, no simultaneous events and enough iterations: with ties (symmetric inputs) or when itmax is hit, the returned plan need not be optimal.", "quantifier": "all finite histograms and positive cost matrices, all reg >= 0, all tie-breaking rules of argmax, all numbers of events", "why_tests_cant": "the path is built from an unbounded sequence of active-set changes; tests compare a handful of random problems at a few gammas, where ties have probability zero", "anchors": ["ot/regpath.py:recast_ot_as_lasso", "ot/regpath.py:complement_schur", "ot/regpath.py:ot_next_gamma", "ot/regpath.py:compute_next_removal", "ot/regpath.py:fully_relaxed_path", "ot/regpath.py:compute_transport_plan"]}
{"id": "C100", "title": "Low-rank Sinkhorn: exact inner marginals, mirror descent steps, convergent projections, and the same run as the dense solver for factorised kernels", "statement": "lowrank_sinkhorn returns Q, R, g with Q'1 = g = R'1 (so the plan Q diag(1/g) R' has the row sums of Q and R as marginals), whatever the tolerance and iteration limit; every outer iteration projects the kernels of a mirror descent step on the low-rank objective onto the set of low-rank couplings, and the inner loop terminates with marginals within stopThr and converges to that Kullback-Leibler projection for every alpha < 1/rank. compute_lr_sqeuclidean_matrix factorises the squared Euclidean cost; value_linear is the cost of the returned plan; sinkhorn_low_rank_kernel carries out the same run as sinkhorn_knopp when K1 K2' is the Gibbs kernel.  The value is however that of a rescaled cost by default, uses the inner weights of the iteration before, and stopThr >= 1 or numItermax = 0 fail.", "quantifier": "all sample sets, positive weights of total one, ranks, alpha, step sizes, initial factors, tolerances, iteration limits and numbers of outer iterations", "why_tests_cant": "convergence and the marginals must hold for every kernel that the outer loop can produce; tests run a few random samples and compare with tolerances", "anchors": ["ot/lowrank.py:lowrank_sinkhorn", "ot/lowrank.py:_LR_Dysktra", "ot/lowrank.py:_init_lr_sinkhorn", "ot/lowrank.py:compute_lr_sqeuclidean_matrix", "ot/lowrank.py:sinkhorn_low_rank_kernel"]}
{"id": "C101", "title": "Unbalanced transport through a bounded quasi-Newton solver: the loss is the documented objective, its gradient is exact, first-order points are global minimisers", "statement": "lbfgsb_unbalanced hands SciPy's solver a loss and a gradient for <G,M> + reg_m1 D(G1|a) + reg_m2 D(G'1|b) + reg R(G), with Kullback-Leibler, quadratic or total-variation marginal penalties and Kullback-Leibler, entropic, quadratic or user-supplied regularisation.  The loss is that objective, the gradient is its gradient (a subgradient for total variation), every point meeting the first-order conditions tested by the solver is a global minimiser over non-negative plans, every smooth minimiser meets them, and lbfgsb_unbalanced2 returns the linear cost or the objective at the returned plan.  Up to the constants 1e-16 inside the logarithms; for total variation the first-order conditions can fail at every point.", "quantifier": "all finite weights, cost matrices, reference measures, parameters, penalties, convex user functions, starting points and plans", "why_tests_cant": "optimality is a comparison with all other plans; tests compare two solvers on random data with tolerances", "anchors": ["ot/unbalanced/_lbfgs.py:_get_loss_unbalanced", "ot/unbalanced/_lbfgs.py:lbfgsb_unbalanced", "ot/unbalanced/_lbfgs.py:lbfgsb_unbalanced2"]}
{"id": "C102", "title": "Convolutional barycenters of images are entropic barycenters on the pixel grid", "statement": "convolutional_barycenter2d never forms the pixel-by-pixel kernel: it applies two one-dimensional Gaussian filters. The result is nevertheless the entropic Wasserstein barycenter of the images for the squared Euclidean cost between pixel positions on the unit square: the two filters equal the full Gibbs kernel, the iterates converge to the barycenter from the uniform start, the stopping test is met after an explicit number of iterations, and an accepted image is within an explicit distance of the barycenter. The log-domain method has the same guarantees for the guarded and renormalised images.", "quantifier": "every number of images, every image width and height, every family of normalised images (zeros allowed in the plain method), every positive weights, every reg > 0, every threshold and iteration limit", "why_tests_cant": "convergence and accuracy are statements about all images and all iteration counts; tests look at a few small images and a loose tolerance", "anchors": ["ot/bregman/_convolutional.py:convolutional_barycenter2d", "ot/bregman/_convolutional.py:_get_convol_img_fn"]}
{"id": "C103", "title": "Debiased convolutional barycenters minimise the Sinkhorn divergence on the pixel grid", "statement": "convolutional_barycenter2d_debiased: whenever the iterates converge to a positive image, that image is the minimiser of the weighted debiased entropic (Sinkhorn divergence) objective over all images, it is the only one, and the stopping test is eventually met. The Gaussian kernel on a pixel grid is positive definite, which is what uniqueness needs. Images with a single column and several rows are handled like any other.", "quantifier": "every number of images, every width and height, every family of normalised images, positive weights, reg > 0", "why_tests_cant": "uniqueness needs positive definiteness of every Gaussian grid kernel, and the claim is about limits", "anchors": ["ot/bregman/_convolutional.py:convolutional_barycenter2d_debiased", "ot/bregman/_convolutional.py:_convolutional_barycenter2d_debiased_log"]}
{"id": "C104", "title": "Batched Sinkhorn solves every problem of the batch and stops within an explicit bound", "statement": "solve_batch runs one loop for all problems. For positive weights both solvers return the same plans: positive, with exact column sums, of the form exp(x + y - M/reg); when the common test is met every problem has row sums within the tolerance (also after the extra update of grad='last_step', in the 1-norm). If the two weights of each problem have equal sums the test is met after an explicit number of iterations, the bounds of the problems adding up; with threshold 0 every plan converges to the entropic optimum of its own problem, and an accepted plan is close to it in relative entropy. value_linear is the transport cost, value the entropic objective (or transport cost plus reg KL(T|ab')) up to the 1e-16 guard. False as stated: the potentials of the two solvers differ everywhere (one returns scalings, the other their logarithms, neither multiplied by reg), and an unknown reg_type is not rejected.", "quantifier": "all batches, sizes, costs, positive weights, regularisations, tolerances and iteration limits", "why_tests_cant": "the stopping test couples the problems of the batch; a test runs finitely many batches and cannot show that the loop always ends or that no problem of any batch is left unsolved", "anchors": ["ot/batch/_linear.py:solve_batch", "ot/batch/_utils.py:bregman_projection_batch", "ot/batch/_utils.py:bregman_log_projection_batch", "ot/batch/_utils.py:entropy_batch"]}
{"id": "C105", "title": "Batched cost matrices are the distances they are named after", "statement": "dist_batch gives squared Euclidean, Euclidean and Minkowski distances for every batch; metric='kl' gives the relative entropy of the target sample with respect to the source sample (nonnegative, zero only for equal samples, for positive samples of equal mass). solve_sample_batch is solve_batch on these costs with uniform default weights, loss_linear_samples_batch the corresponding transport cost. False as stated: dist_kl_batch(logits_X=True) never returns an array of shape (B, n, m), and loss_linear_samples_batch raises with its own default metric.", "quantifier": "all batches, sizes, dimensions and samples", "why_tests_cant": "identities over all real inputs and all shapes", "anchors": ["ot/batch/_linear.py:dist_batch", "ot/batch/_linear.py:dist_lp_batch", "ot/batch/_linear.py:dist_euclidean_batch", "ot/batch/_linear.py:dist_kl_batch", "ot/batch/_linear.py:solve_sample_batch", "ot/batch/_linear.py:loss_linear_samples_batch"]}
{"id": "C106", "title": "Batched Gromov-Wasserstein: exact losses and gradients, exact steps, values that match the plan", "statement": "tensor_batch, loss_quadratic_batch and loss_quadratic_samples_batch evaluate sum L(C1_ik, C2_jl) T_ij T_kl for costs with scalar or vector entries, for every plan when the constants are recomputed, whatever the symmetry flag; the linearised cost used by solve_gromov_batch is the exact derivative of the fused cost along directions keeping the marginals. Every outer iteration returns the minimiser of the linearised cost plus reg KL(.|T) among the plans with its marginals, with exact column sums, and tends to the exact proximal step as the inner solver runs longer. The reported value is the fused cost of the returned plan and splits into value_linear and value_quad. False as stated: the kl loss is documented with exchanged arguments; the symmetry test accepts nearly symmetric matrices, for which the derivative is wrong; alpha=None with M given raises although documented as 0.5; max_iter=0 fails.", "quantifier": "all batches, sizes, feature dimensions, costs, weights, starts, tolerances and iteration limits", "why_tests_cant": "identities over all real inputs; a test compares finitely many plans", "anchors": ["ot/batch/_quadratic.py:tensor_batch", "ot/batch/_quadratic.py:loss_quadratic_batch", "ot/batch/_quadratic.py:loss_quadratic_samples_batch", "ot/batch/_quadratic.py:solve_gromov_batch", "ot/batch/_quadratic.py:tensor_product_batch", "ot/batch/_quadratic.py:compute_tensor_batch"]}
{"id": "C107", "title": "Batched Gromov-Wasserstein descends, stops, and stops at first-order points", "statement": "For solve_gromov_batch: an outer iteration that keeps the marginals does not increase the fused cost when reg is at least alpha times the curvature of the loss times the mass; with exact inner projections the cost of every problem of the batch decreases, and the common test is met after an explicit number of iterations. A plan left unchanged by an iteration is a first-order point of the unregularised fused cost among plans with its marginals (with a quantitative version for small changes), and a global minimiser when the energy is convex along such directions.", "quantifier": "all batches, sizes, costs, positive weights of equal mass, starts and tolerances", "why_tests_cant": "convergence along an unbounded iteration for all inputs", "anchors": ["ot/batch/_quadratic.py:solve_gromov_batch"]}
{"id": "C108", "title": "Alternated projected gradient: exact half steps, first-order midpoints, bounded infeasibility", "statement": "For BAPG_gromov_wasserstein(2) and BAPG_fused_gromov_wasserstein(2): the gradient used is the gradient of the documented objective (with marginal_loss of the fused cost on plans with the given marginals, without it of the cross term at every plan), and in both cases the derivative of the fused cost along every direction that keeps the marginals. The rows update is the unique minimiser of the linearised cost plus epsilon KL among plans with row sums p, the columns update the same for q. Results have positive entries and exact column sums. At a fixed point the midpoint of the plan and its rows update is a first-order point of the fused cost among plans with its own marginals, and the row sums are within a factor exp(3d/epsilon) of p, d the range of the gradient; the same with explicit error when the run stops by tol. The logged loss is the documented objective; the reported value is the fused cost plus an explicit term that vanishes when the row sums are exact; quadratic and linear parts add up. The plan is not a coupling in general, and the value is then not the energy of the plan.", "quantifier": "all sizes, structures, both losses, symmetric or not, both marginal_loss settings, positive weights, starts, epsilon > 0, iteration counts and tolerances", "why_tests_cant": "convergence limits and optimality over all plans cannot be sampled", "anchors": ["ot/gromov/_bregman.py:BAPG_gromov_wasserstein", "ot/gromov/_bregman.py:BAPG_gromov_wasserstein2", "ot/gromov/_bregman.py:BAPG_fused_gromov_wasserstein", "ot/gromov/_bregman.py:BAPG_fused_gromov_wasserstein2"]}
{"id": "C109", "title": "Sliced unbalanced transport: marginals, values and convergence", "statement": "unbalanced_sliced_ot returns positive marginals of the same mass (the input weights multiplied by the exponential of minus potential over parameter; unchanged for an infinite parameter), full_mass is that mass on every slice, sot_loss is the average over the projections of the optimal transport costs between the projected reweighted samples, and the returned loss is the documented objective at the returned marginals up to the constant inside kl_div. As long as no cumulative weights coincide on a projection the loss converges to the minimum over common marginals and plans per projection at rate 1/sqrt(numItermax), and the dual value of the final potentials is at every iteration a lower bound of that minimum and converges at rate 1/numItermax. sliced_unbalanced_ot returns the average of the one-dimensional unbalanced values, which converges to the average of the minima on the projections, and never exceeds the minimum of unbalanced_sliced_ot in the limit.", "quantifier": "all sizes, dimensions, projections, numbers of iterations, powers p >= 1, positive weights, positive or infinite parameters", "why_tests_cant": "a limit and a minimum over all marginals and plans cannot be tested", "anchors": ["ot/unbalanced/_sliced.py:sliced_unbalanced_ot", "ot/unbalanced/_sliced.py:get_reweighted_marginals_usot", "ot/unbalanced/_sliced.py:unbalanced_sliced_ot"]}
{"id": "C110", "title": "Low-rank Gromov-Wasserstein is mirror descent on its objective, and what it reports", "statement": "For lowrank_gromov_wasserstein_samples: for symmetric distance matrices the three gradients computed from the low-rank factors are the gradients of the regularised Gromov-Wasserstein objective of the plan Q diag(1/g) R^T at every positive point. An iteration never fails for positive weights; with a converged inner loop it returns the feasible factors that minimise gamma <gradient, .> + KL to the current factors, and with an inner tolerance its plan has marginals within that tolerance. The returned factors are positive and their columns sum to g (up to the added 1e-16), for every number of iterations. value_quad equals the Gromov-Wasserstein energy of the returned plan and value the objective (plus 3 reg) when the last iteration left g unchanged. The default step size is positive and scales with the gradient.", "quantifier": "all weights, point clouds or cost factors, ranks, regularisations, step sizes, tolerances, iteration limits and starting factors", "why_tests_cant": "tests look at marginals and at one value for small point clouds; they cannot show that three matrices computed by different contractions are one gradient, nor that a step solves a constrained problem for every input", "anchors": ["ot/gromov/_lowrank.py:lowrank_gromov_wasserstein_samples", "ot/gromov/_lowrank.py:_flat_product_operator", "ot/lowrank.py:_LR_Dysktra"]}
{"id": "C111", "title": "Screenkhorn: screening is safe, the small problem solves the large one, and when the call fails", "statement": "For screenkhorn: the selected rows are those with the largest ratios a_i / sum_j K_ij, as many as the budget if the ratios are distinct, and the rejected ones are exactly those with kappa a_i < eps^2 sum_j K_ij (same for columns). At every optimum of the documented dual with scalings bounded below by eps/kappa and eps kappa, the rejected scalings equal these bounds; a first-order point of the restricted objective under these bounds, completed by them, is such an optimum; the optimum exists and its plan is unique, with row sums at least kappa a (equal where the scaling is above its bound). The gradient handed to the solver is the gradient of the objective handed to it. The boxes handed to the solver contain the optimum and do not change the solution if K_min bounds all kernel entries in selected rows and columns. The warm start is exact block minimisation. The returned plan is positive with total mass 1. With the full budget the result is the optimum of entropic transport.", "quantifier": "all costs, regularisations, weights, budgets, solver results meeting the first-order contract", "why_tests_cant": "tests compare screenkhorn with sinkhorn on a few random inputs; they cannot show that no input loses the optimum by screening, nor find the inputs on which the bounds exclude it", "anchors": ["ot/bregman/_screenkhorn.py:screenkhorn"]}
{"id": "C112", "title": "Stochastic Gromov-Wasserstein estimators: unbiased for uniform weights, couplings for every draw, and when they are not", "statement": "For GW_distance_estimation with uniform source weights at least as many as the target: the expectation of the returned mean over the drawn rows and columns is the Gromov-Wasserstein energy of the plan, for every number of samples. pointwise_gromov_wasserstein returns, for every sequence of draws, a coupling of p and q if the step is in [0,1] and no threshold is set, with a threshold a plan whose marginals are at most p and q and short of them by at most (number of columns resp. rows) x threshold / alpha; it is the plan with the smallest estimate among those evaluated, and each direction is an exact optimal plan for the square loss between the drawn rows. sampled_gromov_wasserstein returns a coupling for every sequence of draws if the inner solver does; a regularised step is a mirror step, an unregularised one minimises the drawn gradient; the drawn gradient is unbiased up to a factor for uniform weights and one column per row; the loop stops early only after 101 small changes in a row or a warning.", "quantifier": "all cost matrices, losses, weights, step sizes, thresholds, iteration limits and all random draws", "why_tests_cant": "tests fix one seed; an expectation over all draws and a guarantee for every draw cannot be observed from a seed", "anchors": ["ot/gromov/_estimators.py:GW_distance_estimation", "ot/gromov/_estimators.py:pointwise_gromov_wasserstein", "ot/gromov/_estimators.py:sampled_gromov_wasserstein", "ot/backend.py:NumpyBackend.eliminate_zeros"]}
{"id": "C113", "title": "Unmixing over a dictionary", "statement": "unmix returns positive weights of total mass at most alpha*sum(a)+(1-alpha)*sum(h0). When its iteration is stationary, and the atoms are point masses, the weights are the unique minimiser of the weighted sum of the entropic transport cost from the mixture to the observation and of that from the weights to the prior; alpha=0 should be pure data fit and alpha=1 pure prior. The run stops at the first iteration whose change is below the threshold or when the budget is used up.", "quantifier": "all dictionaries, histograms, costs, regularisations, alpha, budgets and thresholds", "why_tests_cant": "A test compares one run with a stored vector; it cannot tell which problem is solved, nor that the meaning of alpha holds for every input.", "anchors": ["ot/bregman/_dictionary.py: unmix", "ot/bregman/_utils.py: projR, projC"]}
{"id": "C114", "title": "Class proportions from several sources", "statement": "jcpot_barycenter returns a probability vector over the classes; the plans in its log all have these class proportions up to one common factor at most 1; at a stationary iterate every plan is the entropic optimal plan between the proportions spread over the samples and the uniform target weights, and the proportions minimise the documented objective. The call succeeds for any integer labels, leaves the caller's labels alone, and a label names the same class in all domains. JCPOTTransport.transform_labels returns class probabilities.", "quantifier": "all numbers of domains, samples and classes, labels, costs, regularisations, budgets and thresholds", "why_tests_cant": "Tests use two balanced domains with classes 0, 1, 2 everywhere; none of the failing label configurations occurs, and the minimiser is not known to them.", "anchors": ["ot/bregman/_barycenter.py: jcpot_barycenter", "ot/bregman/_utils.py: projR, projC", "ot/da.py: JCPOTTransport"]}
{"id": "C115", "title": "Sliced distances on the sphere", "statement": "The coordinate of a point of the circle is its fraction of a turn, and circular distances of the coordinates of projected samples are their angles. sliced_wasserstein_sphere ends and returns, up to the tolerance of the circle solver, the p-mean over the planes of the exact Wasserstein distances on the circle; so it is a distance up to that tolerance, bounded by 1/2, unchanged when samples and planes are rotated together, when samples are rescaled within the accepted tolerance, and when the bases of the planes change. sliced_wasserstein_sphere_unif is the distance of order 2 to the uniform measure, whatever the order of the samples. linear_sliced_wasserstein_sphere is a pseudo-distance, with X_t=None the distance to the uniform measure. n_projections is not used when projections are given.", "quantifier": "all dimensions, samples, weights, orders p >= 1, numbers of planes and outcomes of the sorts", "why_tests_cant": "Tests check a few seeds for symmetry and self-distance; the triangle inequality, the exact value and invariances range over all samples and planes, and no test passes planes whose number differs from n_projections or X_t=None.", "anchors": ["ot/sliced/_spherical_sliced.py: sliced_wasserstein_sphere, sliced_wasserstein_sphere_unif, linear_sliced_wasserstein_sphere", "ot/sliced/_utils.py: projection_sphere_to_circle", "ot/utils.py: get_coordinate_circle"]}
{"id": "C116", "title": "Quantized Gromov-Wasserstein assembles a coupling of the two spaces", "statement": "quantized_fused_gromov_wasserstein_partitioned with build_OT=True returns, for non-empty partitions with non-negative weights and any coupling of the partition masses found by the global solver, a matrix that is a coupling of the concatenated weights, also when some partitions have no mass. The mass of each block is the entry of the global coupling, and each block that carries mass is the global mass times an optimal transport plan between the distances to the two representants. With one node per partition the result is the global coupling. The solvers on graphs and on samples return a coupling of p and q whose logged qFGW_dist is its loss. Partition and representant methods are the requested ones when their package is installed, the representant of a partition is one of its nodes, and alpha ranges over ]0, 1].", "quantifier": "all partitions (any labels, sizes, orders), representants, weights, relation matrices, global couplings and sort results", "why_tests_cant": "T is a concatenation of 1-D plans in partition order; tests use uniform weights, for which a permuted plan still has the right marginals, and never compare rows with nodes", "anchors": ["ot/gromov/_quantized.py: quantized_fused_gromov_wasserstein_partitioned", "ot/gromov/_quantized.py: quantized_fused_gromov_wasserstein", "ot/gromov/_quantized.py: quantized_fused_gromov_wasserstein_samples", "ot/gromov/_quantized.py: get_graph_representants", "ot/gromov/_quantized.py: format_partitioned_graph", "ot/gromov/_quantized.py: get_partition_and_representants_samples"]}
{"id": "C117", "title": "The spectral-Grassmann value is a distance between spectral decompositions", "statement": "sgot_metric returns the r-th root of the p-Wasserstein distance between the two weighted families of spectral atoms, for the documented ground distance d with d^2 = eta |lambda - lambda'|^q + (1 - eta) d_G^q. sgot_cost_matrix has entries d^p and delta similarities in [0, 1]. The value is non-negative, symmetric, zero exactly when the mass can be moved between atoms with equal eigenvalue and equal eigenlines, satisfies the triangle inequality, and does not depend on the order of the atoms, on the scale and phase of the eigenvectors, or on the common factor of the weights.", "quantifier": "all numbers of atoms, complex eigenvalues and eigenvectors, weights, eta in [0,1], exponents p, q, r, scalings and Grassmann metrics", "why_tests_cant": "metric laws quantify over all triples of decompositions and over all complex phases; tests compare a few random operators", "anchors": ["ot/sgot.py: sgot_metric", "ot/sgot.py: sgot_cost_matrix", "ot/sgot.py: eigenvalue_cost_matrix", "ot/sgot.py: _delta_matrix_1d", "ot/sgot.py: _grassmann_distance_squared", "ot/sgot.py: _normalize_columns"]}
{"id": "C118", "title": "BSP bijections are bijections, never worse than the ones they merge, and exact where documented by tests", "statement": "compute_bspot_bijection returns a permutation whose documented mean cost (l_p^p, or the largest coordinate for p=-1) is the returned cost, at most the cost of each of the n_plans returned intermediary permutations and of initial_perm, and at least the exact transport cost. For two plans the merge is at most as expensive as every bijection mixing them. For a scaled and translated copy it returns the identity; for points on a line it is exact. merge_bijections returns a bijection no more expensive than any of its inputs. The seed makes calls reproducible.", "quantifier": "all point clouds, dimensions, powers, numbers of plans, initial bijections, ground costs, random draws, orders of equal keys, thread schedules and histories of calls", "why_tests_cant": "depends on random directions, on the cycle structure of pairs of permutations, on the order left by nth_element, on the number of threads and on earlier calls", "anchors": ["ot/bsp/bsp_ot.py: compute_bspot_bijection", "ot/bsp/bsp_ot.py: merge_bijections", "ot/bsp/bsp_wrap.pyx: merge_bijections_c", "ot/bsp/bsp_wrapper.cpp: MergeBijections", "ot/bsp/bsp_wrapper.cpp: computeBSPMatchings_dim", "ot/bsp/BSP-OT_header_only.h: MergePlansNoPar", "ot/bsp/BSP-OT_header_only.h: BijectiveBSPMatching", "ot/bsp/BSP-OT_header_only.h: rng"]}
{"id": "C119", "title": "Unmixing a graph on a dictionary returns consistent, never worse results, and dictionary updates are projected gradient steps", "statement": "gromov_wasserstein_linear_unmixing and its fused version return weights in the simplex, the embedding that is their mixture of the atoms, a coupling, and the objective of exactly these; this objective is at most that of uniform weights with the independent plan and never grows with more rounds. The weight solver takes exact line-search steps, is stationary when it stops gaining, and for reg <= 0 converges to the minimum over the simplex at rate O(1/n). In dictionary learning the atom update is the gradient of the mean batch loss, a step with learning rate <= 1 does not increase it, the requested projections hold for the returned atoms, Adam's corrected moments are averages of past gradients, and the dictionary with the best epoch loss is returned.", "quantifier": "all structures, features, dictionaries, marginals, trade-offs, regularisations, tolerances, numbers of rounds, batches and epochs", "why_tests_cant": "iterative, depends on symmetry of the inputs and on every step of two nested loops", "anchors": ["ot/gromov/_dictionary.py: gromov_wasserstein_linear_unmixing", "ot/gromov/_dictionary.py: fused_gromov_wasserstein_linear_unmixing", "ot/gromov/_dictionary.py: gromov_wasserstein_dictionary_learning"]}
{"id": "C120", "title": "Exact transport between point clouds without a cost matrix is the same problem, solved", "statement": "emd2_lazy(X_a, X_b, a, b, metric) returns the exact transport cost for the named ground cost, the same as emd2 on the matrix of costs, with at most n_a + n_b - 1 flows that form an optimal plan; the potentials in the log are feasible, attain the value and are centred if asked for; the gradients with respect to the weights are subgradients of the value; it stops, raises for unequal masses and reports infeasibility only for invalid weights.", "quantifier": "all sizes, dimensions, point clouds, the three ground costs, weights (also zero), initial pivots, block sizes, iteration limits and tolerances", "why_tests_cant": "the internal cost bound, arc numbering and output sizes must fit every point cloud; tests compare values on random clouds with positive weights", "anchors": ["ot/lp/_network_simplex.py:emd2_lazy", "ot/lp/emd_wrap.pyx:emd_c_lazy", "ot/lp/EMD_wrapper.cpp:EMD_wrap_lazy", "ot/lp/network_simplex_simple.h:setLazyCost"]}
{"id": "C121", "title": "solve_sample solves the problem its arguments describe, lazily or not", "statement": "solve_sample(X_a, X_b, a, b, metric, ...) without lazy is ot.solve on the matrix of ground costs. With lazy=True the exact solver returns an optimal plan and the same value, and the entropic solver's lazy plan and value_linear converge to the same optimum for every batch size; value is reported; the regulariser asked for is used. method='1d' gives the exact transport cost per dimension; 'gaussian' and 'factored' use the weights a and b. What is not available raises NotImplementedError. empirical_sinkhorn_divergence is non-negative, zero for identical inputs, and converges to the documented expression, symmetric in its arguments.", "quantifier": "all point clouds, weights, ground costs, regularisations, batch sizes, iteration limits, thresholds and numbers of samples and dimensions", "why_tests_cant": "agreement of dense and lazy paths must hold for every cloud, batch size and limit; tests compare them on random clouds with uniform weights, for which ignored weights and regularisers do not show", "anchors": ["ot/solvers.py: solve_sample", "ot/bregman/_empirical.py: empirical_sinkhorn, empirical_sinkhorn2, empirical_sinkhorn_divergence", "ot/utils.py: OTResult"]}
{"id": "C122", "title": "Projection robust Wasserstein: orthonormal projection, exact marginal, ascent steps", "statement": "projection_robust_wasserstein returns a projection with orthonormal columns and a positive plan whose row sums are exactly a. The plan is the entropic optimum, between a and its own column sums, for the costs projected by some projection W, and U is the retraction of a Riemannian gradient step of the projected cost from W; with a small enough stepsize the projected cost of the plan does not go down. If the loop stops by its test, the column sums are within stopThr of b and W is stationary up to stopThr. The returned plan belongs to the returned projection.", "quantifier": "all point clouds, weights > 0, regularisations > 0, stepsizes, starts, thresholds, iteration limits and QR routines", "why_tests_cant": "iterative, depends on the data and the stepsize; tests check sizes and the value on one example", "anchors": ["ot/dr.py: projection_robust_wasserstein"]}
{"id": "C123", "title": "Entropic Wasserstein component analysis descends", "statement": "ewca returns an orthonormal projection. With exact inner solvers the entropic transport cost between the centred data and their projection never increases from one iteration to the next, for BCD and MM, and ends at most at its value at the start (U0 or principal components); with BCD the projection is the best one for the returned plan. If it stops by its test, the last two subspaces are within stopThr. A start U0 is accepted by both methods.", "quantifier": "all data, subspace dimensions, regularisations > 0, starts, thresholds and iteration limits", "why_tests_cant": "monotonicity of nested iterations for every dataset; tests check one dataset without start", "anchors": ["ot/dr.py: ewca"]}
{"id": "C124", "title": "Discriminant analysis optimises the documented criteria", "statement": "wda minimises the ratio of within-class to between-class entropic transport costs of the projected samples, for both Sinkhorn variants and with normalised regularisation. fda returns at most min(nc - 1, p) directions maximising between-class spread relative to within-class spread, and a function that projects centred samples. Neither changes the caller's arrays.", "quantifier": "all data, labels, projections, regularisations > 0 and numbers of iterations", "why_tests_cant": "the objective seen by the optimiser must be right at every projection; tests only check sizes of the outputs", "anchors": ["ot/dr.py: fda", "ot/dr.py: wda", "ot/dr.py: sinkhorn", "ot/dr.py: sinkhorn_log"]}
{"id": "C125", "title": "Gromov-Wasserstein barycenters return the best barycenter for their plans, descend, and stop when converged", "statement": "gromov_barycenters, fgw_barycenters and their entropic and semi-relaxed variants return feasible plans in the log; fixed features or structure are untouched; the returned features and structure minimise the weighted barycenter objective for these plans; with warmstartT=True the objective never exceeds that of the start and never grows with more iterations; if the loop ends before max_iter because of the stopping criterion, the barycenter moved by at most tol in the last iteration; the logged loss is the objective.", "quantifier": "all inputs, weights, losses, starts, tolerances, iteration numbers, stopping criteria and warm start choices", "why_tests_cant": "tests run a few graphs and check marginals and shapes; descent, optimality of the update against all barycenters and the meaning of the stop are statements about all inputs and all iterations", "anchors": ["ot/gromov/_gw.py: gromov_barycenters, fgw_barycenters", "ot/gromov/_bregman.py: entropic_gromov_barycenters, entropic_fused_gromov_barycenters", "ot/gromov/_semirelaxed.py: semirelaxed_gromov_barycenters, semirelaxed_fgw_barycenters", "ot/gromov/_utils.py: update_barycenter_structure, update_barycenter_feature"]}
{"id": "C126", "title": "The free support Sinkhorn barycenter descends on the entropic objective and stops near a critical point", "statement": "free_support_sinkhorn_barycenter with an inner solver that returns the entropic plan returns positions at which the weighted sum of the entropic transport values is at most the one at X_init; the decrease is at least min(b) times the sum of the logged squared displacements; the loop ends by stopThr for numItermax large enough; one iteration is a gradient step, so positions it keeps are exactly the critical points of the objective; the returned positions are in the convex hull of the input positions; the result is a Frechet mean for the Sinkhorn divergence.", "quantifier": "all measures, weights, starts, regularisations, tolerances and numbers of iterations", "why_tests_cant": "tests compare with the exact barycenter for small reg on one data set; descent, criticality and termination are statements about every run", "anchors": ["ot/bregman/_barycenter.py:free_support_sinkhorn_barycenter"]}
{"id": "C127", "title": "The semi-relaxed regularisation path is optimal at every parameter", "statement": "regularization_path with semi_relaxed=True returns a path of plans such that compute_transport_plan yields, for every parameter from reg on, a plan with the target weights as exact column sums that minimises parameter times cost plus half the squared distance of the row sums from the source weights; the returned plan is the one for reg and the listed parameters strictly decrease.", "quantifier": "all weights, costs, reg >= 0, iteration limits, and all parameters >= reg", "why_tests_cant": "optimality at a continuum of parameters, along an active-set loop with matrix inverses updated in place; tests compare one parameter with a generic solver on one random data set", "anchors": ["ot/regpath.py: semi_relaxed_path", "ot/regpath.py: recast_semi_relaxed_as_lasso", "ot/regpath.py: construct_augmented_H", "ot/regpath.py: compute_next_removal", "ot/regpath.py: regularization_path"]}
{"id": "C128", "title": "Data scaling depends on the last fit only and normalises the data fitted on", "statement": "After any history of fit, transform and fit_transform calls on a DataScaler, transform depends only on the last successful fit: it applies one row-wise transformation to every array of the same backend, raises RuntimeError before a fit (except norm='l2') and ValueError for another backend. Over all arrays fitted on together, 'standard' gives mean 0 and variance 1, 'minmax' gives smallest value 0 and largest 1 (constant features become 0), 'l2' gives rows of length 1. The order of arrays and rows is irrelevant, and scaled data do not depend on the units of the features. sliced_wasserstein_distance and max_sliced_wasserstein_distance with a fitted scaler are the distances of the original samples along directions rescaled per feature.", "quantifier": "all histories of calls, batches, backends, data, projections and p >= 1", "why_tests_cant": "statements about all histories of an object and all data; tests fit a few random arrays", "anchors": ["ot/utils.py: DataScaler", "ot/utils.py: apply_scaler", "ot/sliced/_sliced_distances.py: sliced_wasserstein_distance, max_sliced_wasserstein_distance"]}
{"id": "C129", "title": "warm starting emd changes neither the optimum nor its certificate", "statement": "For nonnegative weights of equal positive mass and nonnegative costs, emd called with potentials_init, whatever these potentials are, never reports INFEASIBLE or UNBOUNDED, reports MAX_ITER_REACHED only when numItermax is set, and when it reports OPTIMAL returns a coupling that is optimal up to the pivot tolerance, dual potentials that are feasible up to that tolerance on points of positive weight and tight where mass is sent, and a cost equal to that of the plan and to the dual objective; so the value is that of the call without warm start. The call returns.", "quantifier": "all sizes, weights, nonnegative cost matrices, initial potentials, block sizes, iteration limits", "why_tests_cant": "the start tree depends on the potentials; tests warm start from a good solution only, where nothing is cut off and no pivot follows", "anchors": ["ot/lp/network_simplex_simple.h:warmstartInit", "ot/lp/EMD_wrapper.cpp:EMD_wrap", "ot/lp/_network_simplex.py:emd"]}
{"id": "C130", "title": "initial plans of the semi-relaxed solvers are admissible and are what their names say", "statement": "semirelaxed_init_plan returns, for weights p of mass one, 0 <= alpha <= 1 and clusters of positive weight, a nonnegative plan with row sums p for every method, with and without features. Clustering methods: the larger graph is replaced by its best least squares structure between clusters and the plan is an optimal transport between the nodes for the distance of the rows of the structures (columns sum to the cluster weights, to uniform weights, or to p); use_target=False sends every node to its cluster; the soft methods return the mean of this plan and the product of its marginals. With features the plan is mixed with a cheapest plan with row sums p, so that alpha=0 gives a cheapest one. Unknown names, and only these, raise ValueError.", "quantifier": "all sizes (first graph larger, second larger, equal), structures, weights, labels returned by the clustering, methods, feature costs, alpha", "why_tests_cant": "the labels come from randomised clustering libraries; tests check the marginals of a few graphs", "anchors": ["ot/gromov/_utils.py:semirelaxed_init_plan"]}
{"id": "C131", "title": "template distances of a batch of graphs are those of its graphs", "statement": "FGW_distance_to_templates and wasserstein_distance_to_templates called on a batch of graphs (each with at least one node) return row by row what they return for each graph alone, so no graph influences another. Entry j is the fused Gromov-Wasserstein value between the graph with uniform weights and the matrix counting its edges, and template j, with parameter alpha (or alpha[j] with multi_alpha), and the Wasserstein value if alpha is zero. The layers use positive template weights of mass one (uniform if not trained) and a fixed alpha in [0,1] as given; initial templates are symmetric with entries in [0,1].", "quantifier": "all graphs, batches, edge lists, templates, solvers, alpha", "why_tests_cant": "batches of any composition; tests check output shapes", "anchors": ["ot/gnn/_utils.py:FGW_distance_to_templates", "ot/gnn/_utils.py:wasserstein_distance_to_templates", "ot/gnn/_utils.py:TFGW_template_initialization", "ot/gnn/_layers.py:TFGWPooling", "ot/gnn/_layers.py:TWPooling"]}
{"id": "C132", "title": "exact partial (fused) Gromov-Wasserstein: plan, mass, value", "statement": "partial_gromov_wasserstein and partial_fused_gromov_wasserstein raise ValueError for a mass below zero or above a total weight and AssertionError for a start whose marginals exceed the weights; otherwise they return a nonnegative plan whose marginals do not exceed p and q and whose mass is the requested mass m (default: the smaller total weight), and the logged value is the objective of the returned plan, never above that of the start.", "quantifier": "all structures, features, losses, weights, masses, numbers of dummy points and of iterations, exact linear solvers", "why_tests_cant": "ties between optimal plans of the extended problem and inputs where the gradient vanishes are not sampled by tests", "anchors": ["ot/gromov/_partial.py:partial_gromov_wasserstein", "ot/gromov/_partial.py:partial_fused_gromov_wasserstein", "ot/gromov/_partial.py:partial_gromov_wasserstein2", "ot/gromov/_partial.py:partial_fused_gromov_wasserstein2", "ot/optim.py:partial_cg"]}
{"id": "C133", "title": "proj_SDP projects onto symmetric matrices with eigenvalues at least vmin", "statement": "For a symmetric matrix S and any vmin, proj_SDP returns a symmetric matrix with eigenvalues at least vmin, the only one closest to S in Frobenius norm; matrices that already qualify are returned unchanged, the result does not depend on the eigendecomposition the backend finds, moves no further than S does, and a stack of matrices is projected matrix by matrix.", "quantifier": "all symmetric matrices of any size, all vmin, all eigendecompositions", "why_tests_cant": "optimality against every admissible matrix, and every choice of eigenvectors", "anchors": ["ot/utils.py:proj_SDP"]}
{"id": "C134", "title": "Sinkhorn with a Nyström kernel: exact row sums, true loss, and the dense solver when all points are anchors", "statement": "empirical_sinkhorn_nystroem and empirical_sinkhorn_nystroem2 raise ValueError exactly for fewer than two anchors. For every draw of the anchors the lazy plan is the product of the two logged kernel factors scaled by the logged vectors; if the loop met no numerical error its row sums are exactly a, and if it stopped by the tolerance its column sums are within stopThr of b. The product of the factors equals exp(-|x-y|^2/reg) at every pair of drawn anchors, and at every pair with one drawn anchor if the kernel matrix of the anchors is invertible. The value of empirical_sinkhorn_nystroem2 is the squared Euclidean transport cost of the plan. With at least 2 max(n, m) anchors the call is the dense Sinkhorn solver on the squared distances (same scalings, iterations, plan), so the plan is positive. With fewer anchors the returned plan should still be non-negative. solve_sample with method nystroem refuses exactly other metrics, ranks below two and an iteration limit of zero; its value is the squared Euclidean cost of its plan, and with rank at least 2 max(n, m) its plan is that of the dense solver with the documented defaults.", "quantifier": "all point clouds in any dimension, all permutations drawn by the random generator, all weights, regularisations, numbers of anchors, iteration limits, tolerances and warm starts, all pseudo-inverses satisfying the Penrose conditions", "why_tests_cant": "The anchors are random and the approximated kernel depends on all of them; tests compare a few draws with a tolerance and never see the sign of the entries for every number of iterations.", "anchors": ["ot/lowrank.py: kernel_nystroem", "ot/lowrank.py: sinkhorn_low_rank_kernel", "ot/bregman/_empirical.py: empirical_sinkhorn_nystroem", "ot/bregman/_empirical.py: empirical_sinkhorn_nystroem2", "ot/solvers.py: solve_sample"]}
{"id": "C135", "title": "Estimator parameters: get_params after any history of set_params, round trip, and refused calls", "statement": "For the estimator classes (BaseEstimator): the parameter names are the sorted constructor arguments without self and **kwargs, and a constructor with *args is refused. After any history of successful set_params calls, get_params lists exactly these names, each with the value assigned last, or its initial value. set_params(**get_params()) changes nothing. set_params succeeds exactly if all keys are parameter names without a double underscore; an unknown key raises ValueError, the parameters before it in the call have then been set and nothing else has changed, so a refused call is not atomic.", "quantifier": "all constructor signatures, all objects without nested estimators, all histories of calls, all keys and values", "why_tests_cant": "Tests make a few calls with one or two parameters; the claim is about every sequence of calls and every position of a wrong key.", "anchors": ["ot/utils.py: BaseEstimator.get_params", "ot/utils.py: BaseEstimator.set_params", "ot/utils.py: BaseEstimator._get_param_names"]}
{"id": "C136", "title": "Helpers that set up problems: clean_zeros keeps the transport problem, make_1D_gauss gives weights, dist0 the squared differences", "statement": "clean_zeros keeps, in order, exactly the points of positive weight. The weights it returns are positive with unchanged sums, and the returned problem is the original one: every plan restricts to a plan of the same cost, every plan of the returned problem comes from exactly one plan, and a plan is optimal exactly if its restriction is. make_1D_gauss returns positive weights of sum one that strictly decrease with the distance of the bin to the mean. dist0(n) is the matrix of squared differences of bin numbers.", "quantifier": "all non-negative weights with zeros in any places, all cost matrices, all plans; all numbers of bins, means and non-zero spreads", "why_tests_cant": "The claim compares all plans of two problems of different sizes; tests compare the values of one solver on a few weights.", "anchors": ["ot/utils.py: clean_zeros", "ot/utils.py: dist0", "ot/datasets.py: make_1D_gauss"]}
