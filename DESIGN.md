# A Lean 4 model of PythonOT/POT

## 1. What is here

* `properties.jsonl` – the semantic properties (C01, C02, …) in words.
* `lean/Verif/Spec/*` – the vocabulary in which properties are stated (couplings, transport
  cost, optimality, dual feasibility, simplex, KL, spanning trees, …).  These files do not import any
  model file.
* `lean/Verif/Model/*` – the model: one Lean function per function (or loop body) of the
  code, each with a comment citing file and lines in `/repo`.
* `lean/Verif/Lemmas/*` – helper lemmas.
* `lean/Verif/Props/*` – the property theorems, each with an `example` showing that a concrete
  non-trivial case meets the hypotheses.
* `MANIFEST.json` – property → theorem names and status.
* `seeded/LOG.jsonl` – the wrong-program experiments.

## 2. Trusted base

* Lean's kernel (4.33.0).  Every theorem depends at most on `propext`, `Classical.choice`,
  `Quot.sound`.  No axioms are added, no `sorry`, no `native_decide`, no `bv_decide`.
* The hand translation Python / Cython / C++ → Lean, i.e. that a definition in `Verif/Model` computes what
  the cited lines compute.  Reviewers check it definition by definition.
* **Arithmetic.** Floating point is not modelled.  Numbers are elements of an arbitrary linearly ordered field
  (so `ℚ` and `ℝ`) or, where `exp`/`log`/powers occur, real numbers.  Safety properties
  that must survive rounding (C01) are proved for an *arbitrary oracle* answering every comparison, hence they also
  hold for rounded arithmetic and for NaN.
* **Guards.** Additive guards such as `1e-16` in logarithms or divisions are modelled with a parameter `ε ≥ 0`
  or set to `0`; each definition says which.
* **Backends.** One backend semantics (mathematical arrays); dispatch over numpy/torch/jax/tf and
  gradient plumbing (`set_gradients`, `detach`) are not modelled, except that the values handed to
  `set_gradients` are.
* **External code** (`scipy.optimize`, `scipy.sparse`, `numpy.linalg`, sorting routines, random generators) is replaced
  by its contract: a sorting permutation, an arbitrary sequence of random indices, an arbitrary function.
* **Machine integers.** Index arithmetic is modelled with unbounded naturals/integers; 64-bit overflow is not modelled.

## 3. Modelled / not modelled

Modelled: see the table in section 4 and the comment above each definition.

Not modelled: `ot/backend.py` (except `kl_div`), plotting, `ot/gnn`, `ot/dr.py`, `ot/da.py`, `ot/mapping.py`, `ot/datasets.py`, `ot/regpath.py`, `ot/bsp`, `ot/sgot.py`, warnings,
verbose printing, `log` dictionaries apart from the entries named in theorems, memory management,
OpenMP scheduling.

Network simplex (`Model/Simplex*.lean`, `Model/EmdWrap.lean`, `Model/EmdSparse.lean`, `Model/EmdLazy.lean`, `Model/EmdPy.lean`): the serial solver of
`network_simplex_simple.h` in exact arithmetic.  Parameters of the model that stand for things left open: `eps`, `feps` (the constants
`EPSILON`, `_EPSILON`), `bs` (block size), `arcs` (the arcs chosen by the heuristics of `initialPivots`, an arbitrary list), `junk` (the value read
through the uninitialised `in_arc` before the first candidate is found), `turns` (a bound on the number of turns of the main loop; the model returns `none` when it is
exhausted and a theorem shows that `2^(arcs+nodes)` turns always suffice), `minFlow` (`1e-15`).  `std::sort` in the sparse graph is replaced by its contract (any sorted
permutation).  Warm start of the dense solver: `warmstartInit` and `EMD_wrap` with initial potentials (`Model/WarmStart.lean`; the order of the arcs is an arbitrary argument).  Not modelled: warm starts of the sparse and lazy wrappers, the OpenMP solver `network_simplex_simple_omp.h`.

Sinkhorn (`Model/Sinkhorn.lean`): `sinkhorn_knopp` (one and several histograms), `sinkhorn_log`, `greenkhorn`, `sinkhorn_stabilized` (one histogram), `sinkhorn_epsilon_scaling`,
the lazy branch of `empirical_sinkhorn`, the batch projections, the extra update of `ot.solve(grad="last_step")`.  `nan`/`inf` detection is modelled through the divisions by zero that cause it.  Not
modelled: `sinkhorn_stabilized` with several histograms, underflow of the kernel.

Partial solvers (`Model/Partial.lean`, `Model/Partial1d.lean`): `partial_wasserstein`, `partial_wasserstein_lagrange` (on top of an arbitrary optimal inner solver), `entropic_partial_wasserstein`
and its log-domain variant, `partial_wasserstein_1d` with all its helpers in `partial_cython.pyx` (natural power `p`, as the extension declares `int p`; `np.argsort` is any sorting permutation, `heapq`
is a sorted list).  Not modelled: `partial_gromov_wasserstein` beyond the generic conditional gradient of C34–C36, the `log` dictionaries.

Unbalanced solvers (`Model/Unbalanced.lean`): `sinkhorn_knopp_unbalanced` for one and several histograms (without warm start for several), its reported total cost; `sinkhorn_stabilized_unbalanced` and
`sinkhorn_unbalanced_translation_invariant` for one histogram (`Model/UnbalancedStab.lean`, `Model/UnbalancedTi.lean`); `mm_unbalanced` with both divergences and its
`total_cost` (`Model/Mm.lean`); `uot_1d` with the functions it uses (`Model/Uot1d.lean`).

Smooth duals (`Model/Smooth.lean`): the regularisations, dual and semi-dual objectives with gradients and the plans of `ot/smooth.py`; scipy's optimiser is an arbitrary choice of
potentials.  Stochastic solvers (`Model/Stochastic.lean`): all of `ot/stochastic.py`; random indices and batches are arbitrary.

Multi-marginal grid solver (`Model/Dmmot.lean`): `discrete_mmot`/`dmmot_monge_1dgrid_loss` and its renormalisation.  Circle (`Model/Circle.lean`): `wasserstein1_circle`,
`semidiscrete_wasserstein2_unif_circle`, `linear_circular_embedding`, `linear_circular_ot` for one batch entry; sorts are arbitrary permutations assumed to sort.
`Model/CircleSearch.lean`: `binary_search_circle` (= `wasserstein_circle`) with `derivative_cost_on_circle`, `ot_cost_on_circle`, `roll_cols`, one batch entry.
`Model/Barycenter.lean`: `ot/lp/_barycenter_solvers.py`: matrices of the linear program of `barycenter` (scipy's `linprog` is a parameter), `free_support_barycenter`, `generalized_free_support_barycenter` (`eps = 0`, the inverse square root is a parameter), `NorthWestMMGluing` (`a = None`, without the tensor of the log), `free_support_barycenter_generic_costs` (both methods, given `ground_bary`), `_clean_discrete_measure`. `emd` is a parameter (C62). Exact arithmetic. Not modelled: the cvxopt call, the gradient descent used when `ground_bary` is not given.
`Model/Coot.lean`: `ot/coot.py`: `co_optimal_transport` and the value and gradients in `X`, `Y` of `co_optimal_transport2`. The inner solvers and the divergence are parameters; the dual vectors are not modelled. Exact arithmetic.
`Model/Weak.lean`: `ot/weak.py`: loss, gradient, start and the call of `cg` (`Model/Optim.lean`). Positive weights.
`Model/Factored.lean`: `ot/factored.py`: loop, template update, lazy plan and logged costs. The inner solvers are parameters; real numbers with exact square roots.
`Model/Sliced.lean`: `ot/sliced/_sliced_distances.py`, `_sliced_plans.py`, `get_random_projections` and `sparse_ot_dist` of `ot/utils.py`. Sorts are permutations assumed to sort, the normal draw is a parameter, `scaler=None`. The spherical variants are not modelled.
`Model/Gaussian.lean`: `ot/gaussian.py` for unbatched inputs: mappings, distances, fixed-point and gradient-descent barycenters, Gaussian Gromov-Wasserstein value and mapping (source dimension at least the target dimension). `nx.sqrtm`/`eigh` are any function returning a valid eigendecomposition; random batches are arbitrary sequences. Logs, warnings and the batched shapes (except the paired case of finding 54) are not modelled.

`Model/Gmm.lean`: `ot/gmm.py` except `gmm_ot_plan_density`. `emd` and `bures_wasserstein_barycenter` are parameters with the contracts of C06/C62 and C79; the draw of `method="rand"` is an arbitrary index.

`Model/EntBary.lean`: `barycenter_sinkhorn`, `_barycenter_sinkhorn_log`, `barycenter_stabilized` (ot/bregman/_barycenter.py 141-259, 403-626) and `geometricBar`, `geometricMean`, with exact real arithmetic. Not modelled: the tests for numerical errors in the stabilized solver, the `1e-16` guard's concrete value (a parameter), `free_support_sinkhorn_barycenter`.

The same file models `_barycenter_debiased` and `_barycenter_debiased_log` (730-873), with `Spec/Debiased.lean` for Sinkhorn divergences. The theorems assume a symmetric cost (the code multiplies by `K` where the general formula has its transpose) and a positive semidefinite kernel (true for squared Euclidean costs), and that the results converge to a positive vector; they then identify the limit. That the iteration converges is not proved in general.
`Model/Solve.lean`: `ot.solve` (ot/solvers.py 57-604), every branch, on top of the models of the solvers it calls. SciPy's optimisers (`smooth_ot_dual`, `lbfgsb_unbalanced`, the line search of `cg`) are fields of an environment; `mm_unbalanced` with an infinite parameter is outside the model.

`Model/GwEntropic.lean`: `entropic_gromov_wasserstein`, `entropic_fused_gromov_wasserstein`, their value versions and the two entropic semi-relaxed solvers, with the loop and its stopping test. The inner Sinkhorn solver is a parameter; theorems assume it returns the exact solution. String initialisations of the semi-relaxed solvers are not modelled.

`Model/GwPartialEntropic.lean`: `entropic_partial_gromov_wasserstein`, `entropic_partial_fused_gromov_wasserstein` and their value versions, with mass and start checks. The inner solver is a parameter; `dykSolver` is the one the code calls (C46).

`Model/SolveGromov.lean`: `solve_gromov` with all its branches. The solvers inside the loops are parameters with explicit hypotheses (`InnerSolversOk`), shown to exist for all positive weights. Left out: potentials of the conditional gradient branches, warnings, `symmetric=None` detection, backend conversions.

`Model/Da.lean`: `BaseTransport` (`fit` up to the cost, `transform`, `inverse_transform`, both label functions), the continuous map of `SinkhornTransport` and `sinkhorn_lpl1_mm` of `ot/da.py`. Division by a zero mass followed by `nan_to_num` is Lean's `x / 0 = 0`; the inner solver of `sinkhorn_lpl1_mm` is a parameter. `Model/DaReg.lean`: objective and gradient of `emd_laplace`, `gcg` (ot/optim.py) and `sinkhorn_l1l2_gl` on top of `Model/Optim.lean`; the neighbour graph of scikit-learn, `emd`, the inner Sinkhorn solver and SciPy's line search are parameters. Not modelled: `LinearTransport`, `MappingTransport`, `UnbalancedSinkhornTransport`, `JCPOTTransport`, `NearestBrenierPotential`.

## 4. Plan per property

| Id | Model | Proof idea |
|----|-------|-----------|
| C01 | `emd_1d_sorted` loop with an oracle for `w_i < w_j` | invariant `cur_idx + 1 ≤ i + j + 1`, measure `n+m-i-j` |
| C02 | same loop over an ordered field | invariant: emitted row/column sums + remaining weights = given weights |
| C03 | same | dual potentials built along the staircase; Monge property of convex costs; weak duality |
| C04 | `quantile_function`, merged grid | both sides are the integral of the cost between quantile step functions |
| C05 | pivots on (parent, pred, forward, flow) state | flow conservation invariant: pushing δ round a cycle has zero divergence |
| C06 | same + potentials | invariant: tree arcs have zero reduced cost; weak duality/complementary slackness |
| C07 | same + artificial arcs with the code's `ART_COST` | positive artificial flow would give a better potential; false for very negative costs (witness) |
| C08 | the arrays parent/thread/rev_thread/succ_num/last_succ | refinement against a rooted tree; preorder list |
| C09 | leaving arc rule | strongly feasible bases; lexicographic potential argument |
| C10 | `findEnteringArc` as a cyclic scan with block counter | scan invariant: minimum over visited arcs |
| C11 | `arc/source/target/first/next` | `Nat` division lemmas |
| C12 | `reset` enumeration, `sequence`, `getArcID` | closed form for the enumeration, inverse |
| C13 | bytes as numbers < 256 with shift/mask | bit lemmas, induction over history |
| C14 | CSR arrays | counting lemmas |
| C15 | filter/inflate | sums over a subtype |
| C16, C17 | direct | algebra |
| C18 | optimal plan + duals | weak duality |
| C19, C20 | sort, cumsum, threshold | KKT / variational inequality |
| C21–C24 | direct | algebra, list induction |
| C25–C33 | Sinkhorn step functions over ℝ | algebra, Gibbs inequality, telescoping |
| C34–C37 | `optim.py` | convexity of the coupling polytope, case analysis |
| C38–C43 | gromov utilities | finite sums |
| C44–C46 | partial solvers on top of an arbitrary optimal inner solver; Dykstra loop | exchange argument; block coordinate ascent |
| C47 | all of `partial_cython.pyx` | chain invariants show that the heap holds the cheapest valid insertion; augmenting paths and the Monge property give optimality of greedy insertion; Birkhoff's theorem passes from matchings to plans |
| C48 | `mm_unbalanced`, both divergences, reported cost | exact identity for the change of the KL objective (three-point identities + data processing) gives descent, `1/n` and linear rates; L2: quadratic surrogate (Cauchy-Schwarz) and a telescoping potential `-Σ K P log G + q(G) + F(G)` |
| C49 | `sinkhorn_knopp_unbalanced`, one and several histograms | three-point identity of KL gives optimality and uniqueness of fixed points; an iteration is a contraction of `log v` in the sup norm with factor `fi1*fi2` (Banach); both parameters infinite: reduced to the convergence proof of C24 |
| C50 | `sinkhorn_stabilized_unbalanced` | algebra of the total scalings `u exp(α/reg)`; without absorption the loop is that of C49 |
| C51 | `rescale_potentials`, `get_reweighted_marginal_uot`, `uot_1d` | one-variable concavity; Fenchel-Young for the two marginals; Frank-Wolfe recursion with a curvature constant from a-priori bounds on the potentials |
| C65 | `emd_1d_dual_backprop` | derivative of the quantile formula with frozen indices; the north-west path is tight, Monge gives feasibility |
| C64 | `sinkhorn_unbalanced_translation_invariant` | the returned pair depends only on `u_` up to a factor; shapes follow the C49 contraction; the factor of the limit is computed from the exponents |
| C52 | `delta_Omega` of the three regularisations, `dual_obj_grad`, `get_plan_from_dual`; scipy's optimiser is an arbitrary choice of potentials | each `delta_Omega` is the conjugate with its maximiser; everything else is Fenchel duality, derivatives from continuous subgradient selections |
| C53 | `projection_simplex`, `max_Omega`, `semi_dual_obj_grad`, `get_plan_from_semi_dual` | as C52, with the conjugate restricted to the scaled simplex; projection from C17's threshold argument |
| C54 | `c_transform_entropic`, `coordinate_grad_semi_dual`, SAG, ASGD, plan; draws are an arbitrary list | supergradient inequality of the semi-dual; regret argument averaged over all draw sequences; two weightings with incompatible maximisers refute the general claim |
| C66 | dual losses, plans, `batch_grad_dual`, `sgd_entropic_regularization` | scalar Fenchel inequalities; counting the batches that contain an index |
| C55 | `wasserstein1_circle` in an ordered field | the signs of the weighted median give a 1-Lipschitz potential; strong duality (from C62) for the other inequality; counterexample when no sample is at the origin |
| C56 | `semidiscrete_wasserstein2_unif_circle` over the reals | power diagram of the unrolled atoms gives the dual bound for every plan with a density; the monotone plan attains it; counterexample |
| C57 | `linear_circular_embedding`, `linear_circular_ot` | index computed by `searchsorted` on the padded cdf; counterexample |
| C67 | `binary_search_circle` over an ordered field; theorem over ℝ for arc length to the power p ≥ 1 | plans lifted to the line carry a rotation number; both slopes are subgradients of the cost as a function of the rotation (potential along the unrolled target); bisection invariant on the signs of subgradients |
| C68 | linear program of `barycenter` | feasible points = families of plans with a common second marginal (the dropped equations follow from equal masses) |
| C69 | `free_support_barycenter` | replacing points by the mean of their images lowers the energy by the weighted squared move; telescoping |
| C70 | `generalized_free_support_barycenter` | the change of variables shifts each transport value by a term linear in the marginals; the sum of the shifts is constant; counterexamples for coefficients and start |
| C71 | `NorthWestMMGluing`, `free_support_barycenter_generic_costs`, `_clean_discrete_measure` | invariants of the row loop; the glued tensor turns the energy into a sum over tuples, which `ground_bary` lowers; loop over pairs of the clean-up |
| C72 | `co_optimal_transport`, `co_optimal_transport2` | the code's costs equal the partial sums of the objective on couplings; each half step lowers the objective; loop invariant; counterexample for `eval_bcd > 1` |
| C73 | `weak_optimal_transport` | exact second-order expansion of the loss; convexity gives the gap and the fixed-point characterisation; C36 gives the run |
| C74 | `factored_optimal_transport` | the template update is an exact minimisation with remainder `2/r` times the squared move; telescoping |
| C75 | `sliced_wasserstein_distance`, `max_sliced_wasserstein_distance`, `get_random_projections` | C04 on each line; gluing lemma and Minkowski's inequality for the triangle inequality; Cauchy-Schwarz for the comparison |
| C76 | `sliced_plans`, `min_sliced_transport_plan`, `expected_sliced_plan`, `sparse_ot_dist` | monotone coupling lists and reindexing by the argsorts; batches by induction; counterexamples for the reported costs |
| C77 | `bures_wasserstein_mapping`, `empirical_bures_wasserstein_mapping` | algebra of square roots; trace inequality from a Schur-type argument on joint covariances |
| C78 | `bures_distance`, `bures_wasserstein_distance`, `empirical_bures_wasserstein_distance` | GLB by regularising the source covariance; triangle inequality by gluing factors; lower bound: the cross moment of a coupling is a joint covariance; counterexample for paired batches |
| C79 | barycenters of Gaussians | convexity certificate from the maps at a fixed point; descent lemma along generalised geodesics; positivity by induction |
| C80 | Gaussian Gromov-Wasserstein | von Neumann type inequality by doubly stochastic rearrangement of the eigenvalues; counterexample for the skewness signs |
| C81 | Optimal transport between Gaussian mixtures | change of variables for the Gaussian integrals, gluing for the triangle inequality, concavity of the joint covariance for the moment bound |
| C82 | Barycenters of Gaussian mixtures | comparison of plans: the old plan is a competitor for the new problem; counterexample for non-uniform weights |
| C83 | Entropic barycenters | dual ascent: each iteration gains the weighted KL of the marginals, oscillation bounds give a compact set, uniqueness by strict convexity; counterexamples for non-uniform weights and for absorption |
| C84 | Debiased barycenters | fixed points are global minimisers: Gibbs inequality against the scaled kernel and positive semidefiniteness give a quadratic gap; a limit of the results forces the scalings to converge by contraction of the oscillation |
| C85 | `ot.solve` | dispatch modelled branch by branch on top of the solver models; entropic branch by convergence of `sinkhorn_log`, others by the theorems of C36, C48, C49, C52, C62; counterexamples where `value`, `c` or the potentials deviate |
| C86 | envelope gradients | weak duality at the returned potentials with exact duality gap `reg KL(P, P_N)`, which tends to 0 |
| C87 | entropic (fused) Gromov-Wasserstein, PGD and PPA | exact change of the objective in one step: minus epsilon KL plus the energy of the difference; sharp Pinsker inequality against the curvature; telescoping for the stopping test; two-cycle as counterexample below the bound |
| C88 | entropic semi-relaxed (fused) Gromov-Wasserstein | same identity for the mirror step with row marginals only |
| C89 | entropic partial (fused) Gromov-Wasserstein | strong convexity of the entropy in the 1-norm (Pinsker on both ends of a segment) gives descent; shift invariance of the inner solver shows that the features are ignored |
| C90 | `ot.solve_gromov` | each branch is a call of a modelled solver; feasibility, values and descent follow from C36, C87-C89 and C01; counterexamples by explicit two-point instances |
| C91 | `BaseTransport.transform` etc. | bias-variance identity for weighted means; batching by C22; masks by C24; the continuous map differs from a row of the plan by a positive factor |
| C92 | cost correction in `fit` | case analysis on the labels: the two factors of the correction exclude each other |
| C93 | `sinkhorn_lpl1_mm` | tangents of the square root majorise the penalty; Gibbs identity and Pinsker for the inner problem |
| C94 | `emd_laplace` | trace identities for graph Laplacians, exact quadratic expansion, C36 for the run |
| C95 | `gcg`, `sinkhorn_l1l2_gl` | one-step lemma for Armijo steps; subgradient inequality + optimality of the inner entropic problem; two-point counterexample |
| C96 | `joint_OT_mapping_linear`, `joint_OT_mapping_kernel` (`Model/Mapping`) | Schur product theorem + exponential series: Gaussian kernel positive semidefinite; exact expansion of the joint quadratic around a solution of the normal equations; invariant of the outer loop |
| C97 | `nearest_brenier_potential_fit`, `nearest_brenier_potential_predict_bounds` (`Model/Brenier`) | completing squares (interpolation inequality of strongly convex smooth functions); two-block descent; CVXPY and `emd` through their contracts |
| C98 | `barycenter_unbalanced_sinkhorn`, `barycenter_unbalanced_stabilized` (`Model/UnbBary`) | exact gap identity for fixed points; each iteration minimises a concave majoriser of `Σ w A^f (Kv)^(1-f)` under `Σ w v^(-c) = 1`; LaSalle's principle on a compact set; conjugation with the absorbed potentials |
| C99 | `recast_ot_as_lasso`, `complement_schur`, `fully_relaxed_path`, `compute_transport_plan` (`Model/RegPath`) | Schur-complement algebra for additions and removals; invariant over the events (inverse exact, solution continuous, Karush-Kuhn-Tucker conditions on the whole segment); interpolation | partial: false with simultaneous events and at the iteration limit |
| C100 | `lowrank_sinkhorn`, `_LR_Dysktra`, `_init_lr_sinkhorn` (random, deterministic), `compute_lr_sqeuclidean_matrix`, `sinkhorn_low_rank_kernel` (`Model/LowRank`) | one Dykstra iteration as two exact block maximisations of a dual; gains are divergences, hence vanish; compactness and a certificate give convergence to the unique projection; derivative of the objective; loop equality with `sinkhornKnopp` | partial: reported value rescaled, `stopThr >= 1` fails; k-means start and Nystroem kernel not modelled |
| C101 | `_get_loss_unbalanced`, `lbfgsb_unbalanced`, `lbfgsb_unbalanced2` (`Model/Lbfgs`); SciPy is a parameter | tangent inequality for each scalar penalty, with the guard constant; directional derivatives; first-order conditions are sufficient and necessary | partial: guards, total variation |
| C102 | `_get_convol_img_fn`, `_convolutional_barycenter2d`, `_convolutional_barycenter2d_log` (`Model/Conv`) | the two filters equal the kernel of the squared Euclidean pixel cost; the loops are simulated by the entropic barycenter iteration of C77, whose convergence, stopping and accuracy bounds are reused with spread `2/reg` | proved |
| C103 | `_convolutional_barycenter2d_debiased`, `_convolutional_barycenter2d_debiased_log`, with the shapes seen by `nx.squeeze` and broadcasting | the Gaussian kernel on a grid is positive definite (power series and Vandermonde); limits are fixed points; C84 gives optimality and uniqueness | partial: single-column images |
| C104 | Model/BatchSolve (solve_batch over the batched Bregman projections of Model/Sinkhorn) | batch iteration of one problem = transposed Sinkhorn–Knopp iteration; the common test summed over the batch; limits, accuracy, values by the single-problem lemmas; refuted for potentials and unknown reg_type | partial: potentials, unknown reg_type |
| C105 | Model/BatchSolve (dist_batch, solve_sample_batch, loss_linear_samples_batch) | expansions of squares, logarithm rules, broadcast shapes; refuted for logits_X and the default metric | partial: logits_X, default metric |
| C106 | Model/BatchGromov (tensor_batch, tensor products, losses, solve_gromov_batch over the batched log projection; feature-valued costs) | expansion of the tensor product for an arbitrary decomposition; bilinear forms on pairs; steps by the entropic optimality condition | partial: kl orientation, nearly symmetric costs, default alpha |
| C107 | the same loop | exact change of the cost in a proximal step, Pinsker, curvature bounds; sums over the batch for the common test | proved (exact inner projections for whole runs) |
| C108 | `BAPG_*gromov_wasserstein*`: four gradients, two half steps, loop, logged values (Model/Bapg) | gradients as those of the fused cost / of the cross term; half steps by a KL identity; fixed points through the midpoint, whose gradient is a sum of a row and a column function; explicit fixed points that are not couplings | partial: convergence to a fixed point not claimed; coupling reading refuted |
| C109 | `sliced_unbalanced_ot`, `get_reweighted_marginals_usot`, `unbalanced_sliced_ot` (Model/Usot) | Frank-Wolfe on the dual with an abstract exact linear oracle (Lemmas/FwDual); the averaged one-dimensional potentials are an oracle for averages of feasible pairs; weak duality per projection | proved (no ties, as C51) |
| C110 | `lowrank_gromov_wasserstein_samples`, `_flat_product_operator` (Model/LowRankGw, inner loop from Model/LowRank) | derivative of the quadratic cross term by symmetry, from the gradient theorem of C100 at the frozen cost; mirror step from C100_mirror and the convergence of the inner loop; value as a bilinear form of two plans | partial (reported value uses the `g` before the last inner loop, rescaling, division by zero: refuted) |
| C111 | `screenkhorn` (Model/Screen); the solver `fmin_l_bfgs_b` is a variable with a first-order contract | convexity of the dual in the logarithms; sign argument at first-order points; existence by compactness of the sublevel set; sorted lists for the thresholds; explicit two-point families for the failures | partial (box can be empty because of `K_min`; unbound names under ties and `restricted=False`; full budget fails for rectangular problems) |
| C112 | `GW_distance_estimation`, `pointwise_gromov_wasserstein`, `sampled_gromov_wasserstein` (Model/Estim, one-dimensional plans from Model/Emd1d); the random generator is an argument | expectations as finite sums over all draws, with a factorisation lemma for independent draws and translation invariance of injective samples; inductions over the iterations | partial (biased for non-uniform weights, exchanged losses, columns without replacement, small default calls) |
| C113 | `unmix` with `projR`/`projC` including their constant `1e-10` | positivity and mass by weighted AM-GM; scaling invariant along the iterations; entropic gap with a free first marginal; uniqueness by KL | partial: documented role of `alpha` refuted; optimality for atoms that are point masses, at a stationary iterate |
| C114 | `jcpot_barycenter` (label handling, `D_1`/`D_2` as class sums and spreads, loop, log plans), `JCPOTTransport.transform_labels` | positivity and mass by Jensen; scaling invariant; entropic gap with a free marginal; explicit stationary counterexample with one target sample | partial: minimality, label handling, soft labels refuted |
| C115 | `get_coordinate_circle`, `projection_sphere_to_circle` (with its reshape), `sliced_wasserstein_sphere`, `_unif`, `linear_sliced_wasserstein_sphere`; drawing of the planes not modelled (they are arbitrary) | polar form of the coordinate; arcs as angles; C67 per plane, Minkowski over planes and grid; C56 for the uniform measure | partial: weighted uniform case, default `X_t`, unused `n_projections` refuted |
| C116 | partitions as label arrays, index lists, representants, local 1-D plans (the `emd_1d` model), block concatenation, logged value, choice of methods (`Model/Quantized`) | local optimality from C03; block sums against the marginals of the global plan; positions sorted by label then node; counterexample with labels 1,0,0 | partial: assembly proved; order of the rows, logged value and method choice refuted |
| C117 | `ot/sgot.py`: eigenvalue costs, column normalisation with its floor, similarities, the four Grassmann metrics, cost matrix, metric; `emd2` is a parameter (`Model/Sgot`) | tensor products turn the similarity into the cosine between complex lines; phases and the triangle inequality of angles; concave powers; gluing of couplings | partial: metric laws, zero set and invariance proved; Martin metric, q > 2, documented formula and short eigenvectors refuted |
| C118 | `ot/bsp`: ground costs, `MergePlansNoPar` loop by loop (cycles, swaps, local improvement), the three space-partition recursions with random draws, `nth_element` and ranking ties as relations, `merge_bijections` with its flat buffer, the thread-local generators (`Model/Bsp`); real numbers instead of `float`; the dtype of `initial_perm` (the wrapper accepts 32-bit integers only) is not modelled | cycles of a permutation via minimal periods; loop invariants on visited stable sets; any mixing bijection follows one plan on a stable set; induction over the recursion; Monge costs on a line; stream positions per thread | partial: merging, call, similarity, line exactness proved; `merge_bijections` guarantee, seed and default slicing on a line refuted |
| C119 | `ot/gromov/_dictionary.py`: both linear unmixings with their conditional-gradient weight solvers and line searches, the atom gradient, projections, Adam, epochs with the best state (`Model/GwDict`); the Gromov-Wasserstein solvers are parameters with a contract (plan, its energy, no increase); `fused_gromov_wasserstein_dictionary_learning` is not modelled | energy as a quadratic form of the weights, exact expansions, Frank-Wolfe rate, non-fused as fused with no features, projected-gradient descent, invariants over epochs | partial: all proved for symmetric structures or atoms; asymmetric structures and the best-dictionary claim refuted |
| C120 | `emd2_lazy`, `emd_c_lazy`, `EMD_wrap_lazy` and the lazy mode of the network simplex: costs from points, upper bound of the costs, endpoints from arc numbers, list of flows, centring, gradients (`Model/EmdLazy`); no warm start | the lazy network equals the dense one with another artificial cost, the bound is large enough, a spanning tree with an artificial root has at most n-1 real arcs | partial: proved for nonnegative weights; potentials and gradients at points of weight zero and negative weights refuted |
| C121 | `solve_sample` (all branches except lowrank, nystroem, geomloss), lazy `empirical_sinkhorn`/`empirical_sinkhorn2` with batches, `empirical_sinkhorn_divergence` (`Model/SolveSample`); calls the models of `solve`, `emd2_lazy`, `wasserstein_1d`, Gaussian and factored transport | batches concatenate to the unbatched iteration; an early stop with threshold 0 is a fixed point; lazy iteration = log iteration of the transposed problem; C85, C120, C04, C74, C78 | partial: dense, lazy exact, lazy entropic, 1d and divergence proved; value of lazy results, `reg_type` with `lazy=True` and weights of gaussian/factored refuted |
| C122 | `projection_robust_wasserstein`, whole loop; `np.linalg.qr` is any routine with the QR contract (`Model/Prw`) | displacement matrix = gradient of the projected cost; polar/QR retraction ascent by trace inequalities (`Lemmas/Stiefel`, `Lemmas/Prw`) | partial: result, stop test and exceptions proved; pairing of plan and projection refuted |
| C123 | `ewca`, both methods, loops and warm start; `eigh`, `qr`, PCA and an exact Sinkhorn by their contracts (`Model/Ewca`) | Ky Fan for BCD, subspace iteration of a positive semidefinite matrix for MM | partial: descent, start, stop proved; MM with a start refuted |
| C124 | `fda`; the objective built by `wda`, with `dr.sinkhorn`, `dr.sinkhorn_log`, `dr.dist` (`Model/Fda`); pymanopt not modelled; `scipy.linalg.eig`, `argsort` by their contracts | convergence of Sinkhorn (C26), symmetry by uniqueness; between-class matrix is a multiple of all ones | partial: limit of the wda objective, number and shape of fda directions; Fisher criterion, centring, immutability refuted |
| C125 | `gromov_barycenters`, `fgw_barycenters`, `entropic_gromov_barycenters`, `entropic_fused_gromov_barycenters`, `semirelaxed_gromov_barycenters`, `semirelaxed_fgw_barycenters`: the loops, stopping rules and logs (`Model/GwBary`); starts given, `armijo=False`; the inner solvers are the models of C36 and C87; semi-relaxed with the square loss | one loop, parameterised by solver, update and test; a contract `Descends` (the solver is never worse than its start, C36; the update is the best for the plans, C41) gives result, last iteration and descent for every instance | partial: stopping test, returned entropic features, logged loss refuted |
| C126 | `free_support_sinkhorn_barycenter` (`Model/FreeSinkhorn`): the loop, the update, the displacement and the stop; the inner `sinkhorn` is a parameter assumed to return the entropic plan (its convergence is C07) | the entropic value has a two-sided second-order expansion in the costs (strong convexity by Pinsker), so the envelope gives the gradient; plan update and position update are both minimisations, so the energy falls by at least `min b` times the displacement | partial: the documented divergence is refuted |
| C127 | `recast_semi_relaxed_as_lasso`, `construct_augmented_H`, `semi_relaxed_path`, `compute_transport_plan` (Model/SemiPath, reusing the Schur updates and lookup of Model/RegPath); `np.linalg.inv` is any function that returns the inverse when there is one; `1e-16` is a tolerance field | the augmented matrix is not definite: on the constraint null space its form is a squared norm, so pivots and Schur complements have a sign and vanish only for directions that cannot be next; the KKT system holds on every segment (induction over the loop) | partial: for unique column minima and runs without coincidences (`C127_path_partial`, instance `C127_path_example`); refuted with equal smallest costs in a column, and at the iteration limit |
| C128 | `DataScaler` (all methods, all exceptions, attributes that may be `None`, backends) and `apply_scaler` (Model/Scaler); rows are lists; warnings, arrays without rows and lists inside lists are not modelled, and the tests `std == 0`, `max == min` are exact | induction over the history of calls; sums over lists; the shift cancels in differences of projections | proved |
| C129 | `warmstartInit`: Kruskal forest, breadth first search, depth first order and its arrays, flow pushed up the tree with cutting off, potentials, run, `EMD_wrap` with initial potentials (`Model/WarmStart`); the order of the arcs arbitrary | the arrays represent a spanning tree, flow conservation and complementary slackness with the turned artificial arcs, every source is joined to a target so the root is joined by few arcs, potentials are bounded, pivots keep this without strong feasibility; OPTIMAL then as in C06 | partial: return without iteration limit not proved (start tree not strongly feasible); nonnegative costs; MAX_ITER plan within the marginals refuted |
| C130 | `semirelaxed_init_plan`, all methods, with and without features; labels of the clustering libraries, random numbers and the exact solver as parameters (`Model/SemiInit`) | regrouping sums over clusters: sending clusters optimally is sending nodes optimally; the averaged structure is the best one (least squares); equal shares on the row minima are a cheapest admissible plan | proved for usable clusters; cluster of weight zero refuted |
| C131 | `FGW_distance_to_templates`, `wasserstein_distance_to_templates` with and without batch, adjacency matrix, choice by `alpha`, subgraph extraction, layers with fixed `alpha`, template initialisation (`Model/Gnn`); solvers as parameters, feature dimension check not modelled | a batch is the concatenation of its graphs: extraction finds each again (induction over the batch); sigmoid inverts logit | proved for graphs with nodes; float `alpha`, directed edges, empty graphs refuted |
| C132 | `partial_gromov_wasserstein`, `partial_fused_gromov_wasserstein` with their checks, default start, extension by dummy points, the linear solver of `partial_cg` and the loop (`Model/PartialGw`, on `Model/Gromov` and `Model/Partial`); `emd` is an exact solver (hypothesis), its iteration limit not modelled | invariant of the loop under convex combinations; the core of any plan of the extended problem is a partial plan of mass `m` plus the mass between dummies; with positive costs shrinking the core shows that mass to be zero; entries of the gradient as energies of single pairs | partial: mass exactly `m` under positivity, refuted in general |
| C133 | `proj_SDP` for a matrix and for a stack (`Model/ProjSdp`); `eigh` is a parameter with its specification | in the basis of the eigenvectors the distance splits over the entries; the diagonal entries of an admissible matrix are at least `vmin`; variational inequality, hence uniqueness, independence of the decomposition and non-expansiveness | proved |
| C134 | `kernel_nystroem`, `empirical_sinkhorn_nystroem`, `empirical_sinkhorn_nystroem2`, the branch `nystroem` of `solve_sample` (`Model/Nystroem`) on top of `sinkhorn_low_rank_kernel` (`Model/LowRank`); the random permutations and `pinv` are parameters (Penrose conditions) | first Penrose condition gives the kernel between anchors; loop invariant for the marginals; with all points as anchors reduction to C100 and C25; sign argument on a 2x2 kernel for the refutation | partial: non-negativity with few anchors is refuted (`C134_negative_refuted`) |
| C135 | `BaseEstimator._get_param_names`, `get_params`, `set_params` (`Model/Estimator`); nested estimators and deprecated parameters are not modelled | induction over the items of a call and over the history; last assignment as a lookup in the reversed list | proved |
| C136 | `clean_zeros`, `dist0`, `make_1D_gauss` (`Model/Helpers`); boolean indexing as the increasing enumeration of the selected positions | plans vanish on rows and columns of zero weight; restriction and extension by zero are inverse and keep the cost | proved |
| C58 | the greedy loop of `dmmot_monge_1dgrid_loss` with its dual variables, `renormalize` | invariants: sent + rest = given, slackness on visited tuples, feasibility below the current index (Monge property of max - min) |
| C59 | gradients of `gromov_wasserstein2` | derivative of a quadratic polynomial |
| C60, C61 | block problems and rescaling of the unbalanced across-spaces solver | product formula of KL; counterexamples |
| C62 | `emd` (dense): assertion, rescaling, support filter, solver, embedding, centring, repair | composition of C05–C07, C15–C17 |
| C63 | `emd` (sparse): edge filter, arc numbering, solver, extraction of triples | gap argument on the node potentials: a cut without leaving arcs; weak duality on edges |

## 5. Places where code and expectation disagree

Found while reading (each is modelled as the code is; the false statement is refuted with a witness and the strongest
true version is proved with suffix `_partial`):

1. `init()` uses `ART_COST = (max cost + 1) * node_num` with the signed maximum.  If all costs are
   `≤ -N/(N-1)` the initial artificial basis passes the optimality test and the solver
   reports INFEASIBLE for a feasible problem.
2. `sparse_ot_dist` multiplies by `w[i[k]]` instead of `w[k]`.
3. `sinkhorn_stabilized` absorbs `log u` but restarts with `u = 1/n`, `v = 1/m`: a run that ends right
   after an absorption returns the plan divided by `n*m`.  With several histograms the absorption
   does not reset `u, v` at all.
4. `sinkhorn_log` with `b` of shape `(m,1)` indexes `warmstart[0]` of `None`.
5. `solve(grad="last_step")` updates `u` from the *old* `v`; the column sums are exact but not the row sums (`C33_row_marginal_refuted`); `max_iter=1` raises because
   the inner call never binds its loop counter (`C33_one_iteration_fails`).
6. `partial_wasserstein`: with `max(M) = 0` dummy-dummy mass is free and the mass of the plan may exceed `m`;
   `partial_cg` uses `np.max(M)` of the linear term, which is `0` for partial GW.
7. `fused_unbalanced_across_spaces_cost` calls `div_to_product` with the plan marginals and the reference
   marginals exchanged.
8. `wasserstein1_circle` forgets the arc between 0 and the first support point.
9. `semidiscrete_wasserstein2_unif_circle` sorts the values but not the weights.
10. `linear_circular_embedding` looks quantiles up in a zero-padded CDF (shift by one atom).
11. `partial_wasserstein_1d` with more requested samples than `min(n,m)` pads with index 0 / -1 silently: the results have the requested length, not the documented
    one, and repeat indices (`C47_padding_refuted`).  Its documented parameter `p : float` is an `int` in the extension.
12. `emd2_lazy` ignores negative weights where `emd` rejects them.
13. `sinkhorn_unbalanced_translation_invariant` uses `v**(+reg/reg_m2)` in one of the two symmetric formulas.
14. The centred duals of `emd2` are subgradients only along weight changes that keep the total mass
    (`C18_mass_change_counterexample`).
15. `generic_conditional_gradient` with `G0=None` starts from `outer(a,b)`, which has the right marginals only if both masses
    are 1; and it performs one iteration even if `numItermax=0`.
16. `fused_unbalanced_across_spaces_divergence` with `divergence="l2"` computes the rescaled parameters from the plan that is about to be
    overwritten instead of the plan that is kept fixed (`C60_l2_counterexample`).
17. The same function with independent regularisation uses `eps_feat` for the sample block (`C60_independent_counterexample`).
18. `rescale_plan=True` is documented to give both plans the same mass; the mass becomes the geometric mean
    (`C61_rescale_counterexample`).
19. `line_search_armijo` without `alpha_max` does not clip the step from above, and `partial_cg` with its default line search would pass the gradient as
    `args`.
20. `SparseBipartiteDigraph::buildFromEdges` does not clear `_in_arcs` and the position maps when called twice (never done by POT).
21. `projection_sparse_simplex` raises for `max_nz > n` (shape mismatch with `arange(max_nz)`), although its documentation promises
    `proj_simplex(V, z)` (`C20_max_nz_too_large`); it also prints a debugging line.
22. `sparse_ot_dist` with the default weights raises as soon as a sample index is not smaller than the number of pairs
    (`C23_default_weights_raise`).
23. `sinkhorn_knopp` with a zero weight in `a` and a zero weight in `b` meets `inf * 0` in its first iteration and returns `K/(nm)` with only a warning
    (`C25_zero_weights_on_both_sides`).
24. `sinkhorn_knopp` with several histograms stops on a joint norm, so the loss of one histogram can differ from that of the separate call
    (`C32_joint_stopping_refuted`).
25. `greenkhorn` tests the plan before the last update: a converged result satisfies the marginals up to `2*stopThr` only (`C30_converged`).
26. `sinkhorn_epsilon_scaling` never reaches exactly `reg`: the last regularisation exceeds it by `(eps0-reg) e^{-n}` (`C31_final_regularisation`).
27. The warm start of `sinkhorn_stabilized`/`sinkhorn_epsilon_scaling` is read as `reg*log u`, documented (and used by the other solvers) as `log u`.
28. `partial_wasserstein` with only negative costs puts the negative cost `2*max(M)` between dummy points: the plan then moves more than `m`
   (`C44_negative_costs_refuted`). With `max(M) = 0` the mass is fixed only by the tie-breaking of the solver.
29. `partial_wasserstein_lagrange` returns the zero plan early when `reg_m < -max(M)`; for negative costs that plan need not be optimal
   (`C45_negative_costs_refuted`). The early return also ignores `log=True`.
30. `entropic_partial_wasserstein` (both versions): a zero weight or `m = 0` leads to `0/0` (or `log 0 - log 0`) in the first iteration; the loop stops with
   a message only and the returned plan contains nan. C46 assumes positive weights and mass. The returned plan has mass exactly `m` but satisfies the row and
   column constraints only in the limit; the log-domain version tests the change of the logarithms and can stop at another iteration.
31. `sinkhorn_knopp_unbalanced`, `sinkhorn_unbalanced2(returnCost="total")`: `total_cost` is computed with `kl_div(mass=False)`, so the mass terms of the objective are missing. At the exact solution with
   finite parameters the reported value is always 0 (`C49_total_cost_refuted`), while the minimum is `reg(Σc-m)+reg_m1(Σa-m)+reg_m2(Σb-m)` and e.g. positive for positive costs.
32. `sinkhorn_knopp_unbalanced` with the default reference `a bᵀ`: one zero weight in `a` or `b` makes the first iteration divide `0/0`; the call returns `exp(-M/reg) a bᵀ` whatever the marginal
   parameters (`C49_zero_weight`, `C49_zero_weight_refuted`).
33. `sinkhorn_knopp_unbalanced` with several histograms ignores `reg_type="kl"` (the default) and `c`: the kernel is `exp(-M/reg)`, so the losses differ from those of one histogram at a time (`C49_hists`).
34. `sinkhorn_stabilized_unbalanced`: when a scaling exceeds `tau`, `max(u)` is absorbed but `u` is kept, and `v` is replaced by ones although only `max(v)` is absorbed; entry `(i,j)` of the plan is
   multiplied by `max(u) max(v) / v_j` (`C50_absorption`, `C50_absorption_refuted`).
35. `sinkhorn_stabilized_unbalanced` tests after its first iteration the change of `u` only: if `u` happens not to change (e.g. a warm start that solves the problem for another `b`) the call stops with a wrong plan and
   reports convergence (`C50_first_test_refuted`).
36. `sinkhorn_unbalanced_translation_invariant` with `reg_m1 = inf` and finite `reg_m2`: the plan is the solution divided by `sum(a)` (`C64_row_infinite`). With different finite parameters the
   exponents `k_rho1`, `k_rho2` are exchanged and the limit is not the solution (`C64_unequal_refuted`). With several histograms `nx.sum` without an axis mixes the histograms (not modelled).
37. `emd_1d_dual_backprop`: when interior cumulative weights of the two measures coincide (e.g. uniform weights and equally many points) the back-propagated derivatives violate the dual constraints (`C65_ties_refuted`);
   the value identity still holds. `uot_1d` inherits this: in the balanced case its potentials stay infeasible for every `numItermax` (`C51_ties_refuted`).
38. `uot_1d(require_sort=False)` uses `u_values_sorted`, `u_weights_sorted`, ... which are only assigned when `require_sort=True`: a NameError (not modelled). With exactly one infinite parameter `kl_div` is called without
   `axis=0`, so in a batch every entry gets the sum of the divergences of all entries (not modelled, one batch entry only).
39. `smooth_ot_dual(reg_type="sparsity_constrained", max_nz=len(a))` raises (`argpartition` with `kth = n`), while the semi-dual accepts it; `method` is ignored by both functions (never passed on to
   `minimize`). Not modelled beyond the hypothesis `max_nz < n`.
40. `averaged_sgd_entropic_transport` draws indices uniformly and never uses the source weights `a` (ot/stochastic.py 219-223): for non-uniform `a` it converges to the solution for
    uniform weights (`C54_asgd_weights_refuted`).  `solve_semi_dual_entropic` does not expose the random state of its solvers.
41. `dmmot_monge_1dgrid_loss` fills the dual variables after the last visited bin with a constant. When a histogram ends with empty bins they can be infeasible, depending on the order of the
    histograms, although they are passed to `set_gradients` and to `dmmot_monge_1dgrid_optimize` as gradients (`C58_dual_refuted`). The value and the plan are right (`C58_optimal`).
42. `wasserstein1_circle` leaves the arc from the origin to the first sample out of the integral and out of the level median (ot/lp/solver_circle.py 523-534). Without a sample at the origin the
    value is wrong and not symmetric (`C55_wasserstein1_circle_refuted`: atoms at 2/5 and 4/5 give 1/5 one way and 2/5 the other).
43. `semidiscrete_wasserstein2_unif_circle` sorts the values but not the weights (ot/lp/solver_circle.py 693, `C56_semidiscrete_refuted`).
44. `linear_circular_embedding` passes a zero-padded cdf to `quantile_function`, which expects the plain one: the atom after the quantile is used (`C57_embedding_refuted`).
45. `generalized_free_support_barycenter` does not pass `weights` to the inner solver (ot/lp/_barycenter_solvers.py 402-412): the result is a barycenter for uniform coefficients in variables scaled with the given ones (`C70_generalized_free_support_refuted`).
46. The same function hands `Y_init` to the inner solver although the latter works in the variables `B⁻¹ y` (`C70_generalized_free_support_refuted`).
47. `ot.lp.barycenter` solves its linear program for histograms of different masses without complaint (`C68_unequal_masses_accepted`).
48. `_clean_discrete_measure` compares squared distances with `tol`; the docstring speaks of distances. `free_support_barycenter_generic_costs` documents a relative displacement for `stopThr`; the code compares the decrease of the energy.
49. `co_optimal_transport2` returns the last *evaluated* distance: with `eval_bcd > 1` it can differ from the objective of the plans in the log (`C72_coot_stale_value_refuted`). The docstring says the value is computed at iterations `eval_bcd, 2 eval_bcd, ...`; the code evaluates at iterations `1, eval_bcd + 1, ...`.
50. `factored_optimal_transport` logs `costa` and `costb` at the template of the previous iteration, not at the returned one (`C74_logged_costs` gives the exact difference).
51. `sparse_ot_dist` (ot/utils.py 391-395) reads the weight of an entry at the source index of the entry, `w[i[b:b+batch_size]]`, instead of at its position. The costs reported by `sliced_plans`,
    `min_sliced_transport_plan` and `expected_sliced_plan` (`beta != 0`) are therefore wrong for non-uniform weights and for samples of different sizes, even with default weights (`C76_cost_refuted`), and the plan returned as the best one need not be the best (`C76_min_refuted`).
52. `sliced_plans` forgets the mass of uniform weights in its costs (`C76_mass_refuted`).
53. `expected_sliced_plan` divides by `n_projections` when it is given together with `projections`, although it is documented as unused then; the plan loses mass (`C76_expected_refuted`).
54. `bures_wasserstein_distance(paired=True)` tests `len(ms.shape) == len(mt.shape)` (ot/gaussian.py 347); batches are otherwise broadcast so that entry `(i, j)` mixes the means of pair `j` with the covariance of pair `i` (`C78_paired_refuted`).
55. `empirical_gaussian_gromov_wasserstein_mapping(sign_eigs="skewness")`: for a direction with zero third moment (e.g. symmetric data) `sign` is `0` and the map collapses the direction; the covariance is not matched (`C80_skewness_refuted`).
56. `bures_barycenter_fixpoint` and `bures_barycenter_gradient_descent` start from `mean(weights * C)`, i.e. the weighted mean divided once more by the number of measures; with `num_iter=0` they raise a NameError (`diff`, `it`) in the log branch. No effect on the claims proved.
57. `gmm_barycenter_fixed_point(barycentric_proj_method="euclidean")` multiplies the rows of the plan by `n` instead of dividing them by `w_bar`; with a non-uniform `w_bar` the iteration moves away from the exact barycenter (`C82_euclidean_refuted`).
58. `gmm_barycenter_fixed_point` updates `means_init`/`covs_init` in place, so the arrays of the caller are modified (not modelled).
59. `barycenter_sinkhorn` starts from scalings normalised with the unweighted geometric mean, and its update preserves the weighted one; with non-uniform weights it converges to the barycenter for a tilted kernel. Two Dirac masses with weights 3/4, 1/4 give (1/2, 1/2) instead of (4/5, 1/5) (`C83_sinkhorn_tilted`, `C83_sinkhorn_weights_refuted`).
60. `barycenter_stabilized` moves the maximum of `v` over the histograms into the kernel and resets `v` to 1; this changes the problem, and after an absorption the iteration converges to another histogram (`C83_absorption_refuted`).
61. `ot.solve(reg_type="L2")` minimises `<M,T> + reg/2 sum T^2` (through `smooth_ot_dual`) but reports `value = <M,T> + reg sum T^2`, which is the minimum of neither objective (`C85_l2_refuted`).
62. `ot.solve` ignores `c`, `plan_init` and `potentials_init` in the balanced entropic branch, although `c` is documented as the reference measure (`C85_reference_refuted`).
63. The potentials of the balanced entropic branch are `log u`, `log v`; the dual variables are `reg` times these (`C85_potentials_refuted`, `C85_entropic_potentials`).
64. `ot.solve(reg, unbalanced, "KL", "KL").value` is `total_cost` of the unbalanced Sinkhorn solver, whose divergences lack the mass terms; it is 0 at every optimum (`C85_unbalanced_value_refuted`, see also finding on C49).
65. `ot.solve(grad="envelope")` with the default `reg_type="KL"` attaches `reg (log u - mean)` as gradient for `a`; the reference measure `a b^T` depends on `a` too, and the derivative is `reg (log u - log a)` up to a constant (`C86_kl_refuted`).
66. `entropic_gromov_wasserstein` with solver PGD can cycle between two plans for ever when `epsilon` is below twice the curvature of the energy, with every iterate worse than the start (`C87_small_epsilon_refuted`); the result at `max_iter` carries no warning. The product start `p q^T` can be a stationary point that is not a minimiser (`C87_argmin_refuted`).
67. `entropic_gromov_wasserstein(warmstart=True)` stores `mu = epsilon * log(u)` (ot/gromov/_bregman.py 227-228) and passes it as the warm start of `ot.sinkhorn(method="sinkhorn")`, which expects `log(u)`. The start of the inner solver is wrong by the factor epsilon; only the number of inner iterations depends on it.
68. `entropic_partial_fused_gromov_wasserstein` adds the number `(1 - alpha) * nx.sum(G * M)` to the gradient (ot/gromov/_partial.py 1623-1625, 1640) where the gradient of the feature term is the matrix `(1 - alpha) * M`. A constant cost has no effect on the inner problem, so the features never influence the plan (`C89_features_ignored_refuted`, `C89_fused_refuted`); they only enter the reported value.
69. Both entropic partial functions check a given start with `nx.any(row sums <= p)` (ot/gromov/_partial.py 1232-1233, 1590-1591): one row and one column within the marginals are enough (`C89_start_refuted`).
70. `solve_gromov` with features calls `entropic_fused_gromov_wasserstein` and its semi-relaxed version without `epsilon` (ot/solvers.py 1160-1199, 1225-1258): whatever `reg`, the plan is the one for 0.1, and the reported value adds `reg` times its entropy (`C90_reg_ignored`, `C90_reg_refuted`).
71. `tol` is not passed to the balanced entropic solvers by `solve_gromov` (`C90_tol_ignored`).
72. `plan_init` of the exact partial problem is only compared with the marginals, not with the mass: a zero start is accepted and returned (`C90_partial_start_refuted`).
73. `solve_gromov` leaves `value_linear` empty for partial problems with `alpha = 1` (`C90_parts_refuted`) and `value_quad` empty for the entropic problem with `alpha = 0` (`C90_wasserstein_entropic`); `unbalanced_type='partial'` without `unbalanced` solves the balanced problem; the semi-relaxed fused branch accepts any `reg_type` and fails without `M`.
74. `BaseTransport.fit`: `missing_labels` is 1 only where *both* labels are masked, so the correction for labels is always zero, and `nan_to_num(x, -np.inf)` passes `-inf` as `copy`; semi-supervised fitting ignores the labels (`C92_labels_ignored`). It also multiplies `limit_max` by the largest cost at every call (`C92_drift_refuted`). `EMDLaplaceTransport` has no `limit_max`, so fitting it with both label vectors raises AttributeError.
75. `transform` sends samples without mass to the origin (`C91_zero_mass_refuted`); repeated training samples are mapped differently inside and outside the training call (`C91_duplicates_refuted`).
76. `emd_laplace` puts `alpha` on the source term and `1 - alpha` on the target term, the documentation says the opposite (`C94_alpha_refuted`).
77. `gcg` passes `reg2=None` to `generic_conditional_gradient`: line search, losses and stopping test ignore the entropic term (`C95_iterates`, `C95_gcg_refuted`). `sinkhorn_l1l2_gl` uses norms where its documentation has squared norms (`C95_group_norm`).
78. `JCPOTTransport.fit` passes `distrinumItermax=self.max_iter`, which `jcpot_barycenter` swallows in `**kwargs`: `max_iter` has no effect (not formalised). `sinkhorn_lpl1_mm(numItermax=0)` fails with an unbound variable (`C93_feasible`).
79. `joint_OT_mapping_kernel(bias=True)` penalises the offset (`C96_loss_kernel_bias`; the linear version does not), and its linear system is singular as soon as two source samples coincide (`C96_kernel_bias_refuted`). `kernel` leaves `K` unbound for other names than `gaussian`/`gauss`/`rbf`.
80. `nearest_brenier_potential_predict_bounds` asks CVXPY for the minimum of an unbounded problem when the class of a query has no training sample (`C97_empty_class_refuted`).
81. `barycenter_unbalanced_sinkhorn`/`_stabilized` accept weights that do not sum to one; the result is then not the barycenter, even for one histogram (`C98_weights_refuted`). Every absorption of the stabilised version sets the scalings of all histograms to their maximum, so it restarts the iteration instead of continuing it (`C98_stab_step`).
82. `fully_relaxed_path`: when two indices become active at the same `gamma` (any symmetric input) the second is masked by the `1e-10` tolerance and never enters again; for two points on each side with equal weights the returned plan is not optimal, whatever the tie-breaking (`C99_tie_refuted`). When `itmax` is hit the last segment is extrapolated to `reg` beyond its breakpoint and labelled `reg` (`C99_itmax_refuted`). A zero cost makes the first parameter infinite (division by zero).
83. `lowrank_sinkhorn`: with the default `rescale_cost=True` the reported `value`/`value_linear` are those of a rescaled cost (`C100_value_rescaled_refuted`); `value_linear` uses `diag_g` of the iteration before (`C100_outer_step`, `C100_value`); `stopThr >= 1` or `numItermax = 0` leave `u1` unbound (`C100_unbound_refuted`); the outer loop always runs 100 times, `stopThr`/`numItermax` only reach the inner loop; the error message for a too large `alpha` divides by `rank`, which fails for the default `rank=None`.
84. `lbfgsb_unbalanced`: the gradient is not the gradient of the guarded loss (it exceeds it by up to `reg + reg_m1 + reg_m2` where the plan vanishes; `C101_gradient_guard`, `C101_guard_refuted`); with `regm_div="tv"` the (sub)gradient can violate the first-order conditions at every plan, the minimiser included (`C101_tv_refuted`); zero weights with the default reference measure `a bᵀ` divide by zero.
85. `convolutional_barycenter2d_debiased`: `nx.squeeze` removes every axis of length one, so for images with one column (`h = 1`) and `w > 1` rows the correction term broadcasts to `w x w` and the next update fails or changes shape (`C103_single_column_refuted`); the log-domain method is not affected.
86. `dist_kl_batch(logits_X=True)` (ot/batch/_linear.py) subtracts a four-dimensional array from a three-dimensional one without summing over the feature axis, so it never returns `(B, n, m)` (C105_logits_refuted).
87. `loss_linear_samples_batch` has default `metric="l2"`, which `dist_batch` rejects (C105_default_metric_refuted).
88. `solve_batch`: the potentials are scalings for `"sinkhorn"` and logarithms for `"log_sinkhorn"` (not multiplied by `reg`); an unknown `reg_type` leaves `value` unbound; `max_iter=0` leaves `n_iters` unbound (C104_potentials_refuted, C104_fails_refuted).
89. `tensor_batch(loss="kl")` computes `∑ b log(b/a)` (`a` from `C1`), the documentation says `∑ a log(a/b)` (C106_kl_documented_refuted).
90. `solve_gromov_batch`: the automatic symmetry test uses NumPy's default relative tolerance `1e-5`; nearly symmetric costs get a wrong derivative (C106_flag_refuted). `alpha=None` with `M` raises although documented as `0.5` (C106_fails_refuted).
91. `BAPG_gromov_wasserstein`: for every `epsilon` there are fixed points far from the coupling constraint (row sum 3/4 instead of 1/4 as epsilon tends to 0), and `gw_dist` is then computed with constants of `p`, `q` rather than of the plan: neither the energy of the plan nor of a coupling (C108_coupling_refuted, C108_value_refuted). A zero weight divides zero by zero at once (C108_zero_weight_refuted).
92. `lowrank_gromov_wasserstein_samples`: `diag_g` in the reported value is the one from before the last inner loop; with the returned `g` different from it the reported `value_quad` is not the energy of the returned plan and can be negative (C110_value_refuted). With `numItermax = 0` or `stopThr >= 1` it is unbound (C110_unbound_refuted).
93. `lowrank_gromov_wasserstein_samples`: with the default `rescale_cost=True` source and target are divided by different constants, so pairs of points at distances 2 and 4 are isometric for the solver (C110_rescale_refuted). With coinciding points on one side and `reg=0` the default step size divides by zero (C110_gamma_refuted). The error message for `1/rank < alpha` with `rank=None` itself raises a TypeError.
94. `screenkhorn`: `K_min` is the minimum over selected rows *and* columns, but the bounds of Proposition 1 need all the entries in selected rows and columns. For weights (2/3, 1/3), cost |i - j|, any regularisation and the default budget the upper bound is below the lower one and `fmin_l_bfgs_b` raises (C111_box_refuted).
95. `screenkhorn`: `cst_u`, `cst_v` are unbound, and the call raises, with `restricted=False` and less than the full budget, and with any flag when ties select every point, e.g. uniform weights and a circulant cost (C111_unbound_refuted, C111_ties_refuted). The full budget raises for `ns != nt`, because `vec_eps_IJc` and `vec_eps_IcJ` have each other's length (C111_full_refuted). Not modelled: one point a side has default budget 0 (division by zero or last entry); `uniform=True` takes the first selected weight for all extremes without checking.
96. `GW_distance_estimation` is documented as unbiased, but averages uniformly over rows drawn without replacement: for weights (1/3, 2/3) it returns 1/2 for every draw where the energy is 4/9 (C112_biased_refuted). If the source is smaller than the target the matrices are exchanged but the arguments of the loss are not, so a non-symmetric loss is evaluated the wrong way round (C112_swap_refuted).
97. `sampled_gromov_wasserstein` draws columns without replacement: with all columns drawn (default, ten points a side) the gradient does not depend on the plan (C112_gradient_refuted), and with at most nine points a side the default call raises (C112_small_refuted). Dividing by a negative `max_Lik` (a loss that can be negative) reverses the direction; not modelled.
98. `pointwise_gromov_wasserstein` raises with `max_iter=0` (C112_no_iteration_refuted), and for one point a side, where the number of samples is 0 (first part of C112_samples) and the mean of nothing is not smaller than infinity.
99. `unmix` exchanges the weights of its documented objective: `alpha` multiplies the data term and `1-alpha` the prior (`C113_alpha_zero_refuted`: for `alpha=0` the result does not depend on the observation; `C113_alpha_one_refuted`), and the two terms are divided by `reg` and `reg0` (`C113_stationary_optimal`). The weights lose mass before convergence (`C113_histogram_refuted`). `err` subtracts vectors indexed by atoms and by the prior's bins, so `dim_prior != n_atoms`, which the documentation allows, raises. For overlapping atoms the update `D.T @ (delta / inv_new)` of the prior's plan is an arithmetic mean where the KL projection is a geometric one.
100. `jcpot_barycenter` does not minimise its documented objective when a class has several samples in a domain (`C114_argmin_refuted`: the class totals are summed where the projection needs a geometric mean). It subtracts the minimal label of each domain in place: the caller's arrays change (`C114_mutation_refuted`) and a domain without the first class has its classes renamed (`C114_labels_refuted`). A class missing in one domain is estimated absent (`C114_missing_class_refuted`). Labels that span more than the number of classes of the first domain raise (`C114_success`). With a single domain `list_to_array(*Xs)` returns the array itself, whose rows are then taken for domains (not formalised).
101. `JCPOTTransport`: `proportions_` is the pair (proportions, log) when `log=False` (ot/da.py 2431-2433; not formalised); soft labels are not probabilities (`C114_soft_labels_refuted`); see also finding 78.
102. Spherical sliced: given `projections` whose number is not `n_projections` (default 50) raise although the documentation says `n_projections` is not used (`C115_projections_refuted`); `linear_sliced_wasserstein_sphere` with its default `X_t=None` raises (`C115_lssot_default_refuted`); weighted `sliced_wasserstein_sphere_unif` depends on the order of the samples (`C115_unif_refuted`, from finding on `semidiscrete_wasserstein2_unif_circle`).
103. (`C116_order_refuted`, `C116_methods_refuted`, `C116_representant_refuted`, `C116_samples_method`) `quantized_fused_gromov_wasserstein` and the version on samples return `T` with rows and columns sorted by partition label, not in the order of the nodes; with non-uniform weights `T` is not a coupling of `p` and `q`, and `qFGW_dist` combines it with matrices in another order (13/8 logged where the only coupling costs 11/8). The fallback to random methods sits outside the `if not networkx_import` test, so Louvain, fluid and PageRank are never used. With as many labels as nodes the representants are `0, 1, …` even if labels are permuted. `method='kmeans_fused'` raises for the default `alpha=1`.
104. (`C117_martin_refuted`, `C117_q_refuted`, `C117_doc_refuted`, `C117_short_refuted`) `sgot_metric` violates the triangle inequality with `grassmann_metric='martin'` and with `q > 2`; `sgot_cost_matrix` documents a Grassmann term `1 - δ²` but computes `(1 - δ²)^{q/2}`, another value for the default `q = 1`; eigenvectors with norm under `1e-12` are not normalised, so a decomposition is at positive distance from itself (and the argument `eps` does not reach the normalisation).
105. (`C118_merge_count`, `C118_merge_bijections_refuted`, `C118_threads`, `C118_seed_ignored`, `C118_seed_refuted`, `C118_line_refuted`) `merge_bijections_c` passes `plans.shape[1]`, the number of points, as the number of bijections: with fewer bijections than points the compiled code reads past the end of the array, with more it ignores the rest and the documented guarantee fails. The generators are `thread_local` and take `global_seed` once: every thread repeats the same plans in a fresh process (64 plans on 8 threads are 8 distinct ones), later calls ignore `seed` and continue the streams. With the default Gaussian slicing, blocks of fewer than 50 points are cut orthogonally to a previous direction, which on a line is the zero direction (in floating point, a rounding residue).
106. (`C119_asymmetric_refuted`, `C119_best_refuted`) The unmixing solvers accept asymmetric structures (`symmetric=None`), but use `const_TCT = (C T)ᵀ T`, the transpose of the cross term: with asymmetric structures and atoms the weights move away from the optimum and the reported loss (0) is not the loss of the result (1/2), which is worse than the start (1/8). Dictionary learning compares the epoch loss, measured before each update, and saves the dictionary after the updates: the returned dictionary is not the one with the best loss (9 instead of 1 in the example).
107. (`C120_zero_weight_refuted`, `C120_negative_refuted`) `emd2_lazy` does not repair the potentials of points of weight zero (`emd2` does): they violate the dual constraints and the gradient with respect to that weight is wrong. One source at 0, targets at 10 and 0 of weights 1 and 0, squared cost: the gradient predicts at least 100 for moving all mass to the second target, the true cost is 0. Negative weights are dropped and the rest reported as optimal.
108. (`C121_lazy_value_refuted`, `C121_lazy_l2_refuted`, `C121_gaussian_weights_refuted`, `C121_factored_weights_refuted`) `solve_sample(..., lazy=True, reg=...)` leaves `value` empty and ignores `reg_type`: with `reg_type="L2"` it silently returns the entropic plan. `method="gaussian"` and `method="factored"` ignore the sample weights `a`, `b`: samples 0, 1 with weights 1, 0 against the sample 0 have transport cost 0, the Gaussian value is at least 1/4 and the factored plan gives weight 1/2 to the second sample.
109. (`C122_prw_pair_refuted`, `C122_prw_returns`) `projection_robust_wasserstein` returns the plan computed before the last update of `U`. It raises (`pi` unbound) for `maxiter=0` or `stopThr >= 1`.
110. (`C123_mm_start_refuted`) `ewca(..., U0=..., method="MM")` raises: `lambda_scm` is only set when `U0` is missing.
111. (`C124_fda_directions`, `C124_fda_fisher_refuted`, `C124_fda_centering_refuted`) `fda` calls `np.mean` without an axis: each class mean is one number, so the between-class matrix is a multiple of the all-ones matrix and every returned direction solves `(Sw + reg) v = const` or is blind to the classes. The same scalar mean is used to centre the samples.
112. (`C124_fda_overwrites`, `C124_fda_one_class_refuted`) `fda` (and `wda`) subtract the mean in place from the caller's array. With one class `idx[-0:]` returns all eigenvectors. The objective given by `wda` to its optimiser is twice the documented ratio (`C124_wda_loss_partial`).
113. (`C125_fixed_one_iteration_refuted`, `C125_sr_fixed_one_iteration_refuted`, `C125_or_test_refuted`) `fgw_barycenters`, `semirelaxed_fgw_barycenters` and `entropic_fused_gromov_barycenters` stop when the features *or* the structure have converged, and the error of a fixed part is 0. With `fixed_structure` or `fixed_features` and `stop_criterion="barycenter"` (the default) exactly one iteration is done whatever `max_iter` and `tol`. With nothing fixed the loop can stop after an iteration that moved the structure by 1.
114. (`C125_entropic_features_refuted`) `entropic_fused_gromov_barycenters` updates `X` but returns `Y`. The returned features are `init_Y` (zeros by default) for every input, and with `stop_criterion="barycenter"` only one iteration is done.
115. (`C125_logged_loss_refuted`, `C125_zero_loss_refuted`) The loss logged and tested by the barycenter functions leaves out `lambdas`, so it is not the objective that is minimised. When it is exactly zero the relative change is `nan` and the loop never stops by it.
116. (`C126_divergence_refuted`) `free_support_sinkhorn_barycenter` is documented as a Frechet mean for the Sinkhorn divergence. It uses the entropic cost without the debiasing terms. Started at the only input measure it moves away from it, for every `reg`.
117. `regularization_path(..., semi_relaxed=True)` starts from one smallest cost per column. If two costs of a column are equal (two source points at the same distance), the reduced gradient of the other entry is constant in the parameter, the candidate value is `negative / 1e-16`, and the entry is never activated: with source weights (1/4, 3/4), one target and equal costs the returned plan puts everything on the first source for every parameter, although the plan (1/4, 3/4) is better for all (`C127_column_tie_refuted`). With `itmax=1` the function fails with an `IndexError` (`C127_no_iteration_refuted`), and at the iteration limit the last plan is relabelled as the plan for `reg` (`C127_itmax_refuted`).
118. `emd` with `potentials_init` that stops at `numItermax` returns a plan that can ship more mass than there is: in `warmstartInit` a node whose tree arc would carry a negative flow is joined to the root by an artificial arc against its direction, so the plan is not even a partial plan (row sums above `a`, column sums above `b`), and its cost can be below the optimum. The default start never does this (C05). The start tree is also not strongly feasible, so the rule against cycling has no proof there. `C129_max_iter_overfull_refuted`.
119. `semirelaxed_init_plan` with a clustering method, a larger first graph and `use_target=True` divides by the weight of each cluster: a cluster made of nodes of weight zero, or fewer clusters found than asked for (k-means on a structure with equal rows), makes the whole plan NaN without an error. `p=None` is documented as uniform weights but is not handled. `C130_zero_weight_cluster_refuted`.
120. `FGW_distance_to_templates(alpha=0.5)`, the documented and default type of `alpha`, raises `TypeError`: `torch.all(alpha == 0)` is called with a Python `bool`. Only tensors work. `C131_float_alpha_refuted`.
121. The template distances call the solver with `symmetric=True` for any edge list; with directed edges the matrix is not symmetric and the gradient of the solver is wrong. Graphs without nodes at the end of a batch are dropped from the result. `emd2` is called with `numItermax=50`: above 50 pivots the value is that of a partial plan (C05), with a warning only. `C131_directed_refuted`, `C131_empty_graph_refuted`.
122. `partial_cg` prices mass between dummy points with `100 * max(M)` of the linear term, zero for Gromov-Wasserstein, instead of the linearised cost: when a pair of nodes matches the plan at no cost (isolated nodes of adjacency matrices) an exact solver may move more than `m`, and the line search accepts it (`C132_mass_refuted`). The mass of a given start `G0` is not checked, and the zero plan is a fixed point (`C132_start_mass_refuted`). With `log=False` neither solver passes its argument `warn` on.
123. `empirical_sinkhorn_nystroem` can return plans with negative entries: the Nyström kernel of two points on each side has one negative entry, and then no scaling of it is non-negative, whatever the number of iterations; no warning is given since the row sums are exact (`C134_negative_refuted`). Also, `kernel_nystroem` documents `ceil(anchors / 2)` points per side and draws `anchors // 2` (ot/lowrank.py 561-562). `solve_sample(method="nystroem")` ignores `unbalanced`, `c`, `plan_init` and `potentials_init` without notice, and its `value` is the linear cost without the regulariser (`value_linear` is `None`).
124. `set_params` is not atomic: parameters listed before an unknown key keep their new values although the call raises `ValueError` (`C135_atomic_refuted`).
