{"id": "C01", "title": "Sparse multiply is the pointwise product", "statement": "For two sparse categorical factors whose missing entries mean probability zero and whose shared variables have equal cardinalities, multiply succeeds and the value of the result at every joint assignment is the product of the two factors' values there; its scope is the union of the scopes.", "quantifier": "all pairs of factors (any scopes: equal, nested, overlapping, disjoint), all tables, all joint assignments, all set-iteration orders", "why_tests_cant": "the table contents, scopes and assignments are unbounded; tests compare a handful of binary tables", "anchors": ["veroku/factors/sparse_categorical.py:SparseCategorical.multiply", "veroku/factors/sparse_categorical.py:_apply_binary_operator", "veroku/factors/sparse_categorical.py:_any_scope_binary_operation"]}
{"id": "C02", "title": "Sparse marginalize sums out exactly the dropped variables", "statement": "For a sparse factor with zero default, marginalize returns a factor over exactly the kept variables whose value at each assignment is the sum of the factor's values over all values of the dropped variables, both for keep=True and keep=False and for any order of the kept variables.", "quantifier": "all factors, all subsets and orders of variables, all assignments", "why_tests_cant": "unbounded tables and variable subsets; hash-order dependence of keep=False cannot be enumerated by a test", "anchors": ["veroku/factors/sparse_categorical.py:SparseCategorical.marginalize", "veroku/factors/_factor.py:get_marginal_vars", "veroku/factors/sparse_categorical.py:_get_nested_sorted_probs"]}
{"id": "C03", "title": "Sparse reduce is restriction to the evidence", "statement": "For a sparse factor, reduce returns the factor over the unobserved variables whose value at each assignment is the original value with the observed variables set to the evidence; it raises KeyError exactly when the table has no entry at all compatible with the evidence.", "quantifier": "all factors, observed subsets/orders and values, all remaining assignments", "why_tests_cant": "all tables and evidence combinations", "anchors": ["veroku/factors/sparse_categorical.py:SparseCategorical.reduce"]}
{"id": "C04", "title": "Sparse divide is the pointwise quotient, including implicit entries", "statement": "divide of sparse factors with a common default gives, at every in-range joint assignment, the difference of the log values (explicit or default) of both operands.", "quantifier": "all pairs of factors, all in-range joint assignments", "why_tests_cant": "the implicit entries of both operands interact; tests cover few sparsity patterns", "anchors": ["veroku/factors/sparse_categorical.py:SparseCategorical.divide", "veroku/factors/sparse_categorical.py:_any_scope_bin_opp_none", "veroku/factors/sparse_categorical.py:_make_inner_dense"]}
{"id": "C05", "title": "Sparse cancel: 0/0 is 0 and cancel undoes absorb", "statement": "For sparse factors with zero default, cancelling a factor whose scope lies inside the scope gives the quotient with 0/0=0, and multiplying by a message and then cancelling it returns the original values wherever the message is non-zero and 0 elsewhere.", "quantifier": "all factor/message pairs with nested scopes, all zero patterns, all assignments", "why_tests_cant": "zero patterns are unbounded", "anchors": ["veroku/factors/sparse_categorical.py:SparseCategorical.cancel", "veroku/_cg_helpers/_cluster.py:receive_message"]}
{"id": "C06", "title": "Sparse reorder preserves the function", "statement": "Reordering the variables of a sparse factor never changes the value at any assignment (for zero-default factors; a non-zero default is lost).", "quantifier": "all factors, all permutations of the scope, all assignments", "why_tests_cant": "all permutations and tables", "anchors": ["veroku/factors/sparse_categorical.py:SparseCategorical.reorder"]}
{"id": "C07", "title": "Sparse potential does not depend on the order in which the caller lists the variables", "statement": "potential(vrs, assignment) of a sparse factor returns the value at the assignment that gives vrs[i] the value assignment[i], for every order of vrs.", "quantifier": "all factors, all orders of the scope, all assignments", "why_tests_cant": "the existing test uses two variables only; the failure needs a 3-cycle", "anchors": ["veroku/factors/sparse_categorical.py:SparseCategorical.potential"]}
{"id": "C08", "title": "Sparse argmax returns a maximising assignment", "statement": "argmax of a sparse zero-default factor returns an assignment whose value is at least the value of every other assignment.", "quantifier": "all non-empty factors and assignments", "why_tests_cant": "all tables", "anchors": ["veroku/factors/sparse_categorical.py:SparseCategorical.argmax"]}
{"id": "C09", "title": "Sparse normalize yields total mass one and preserves ratios", "statement": "After normalize of a sparse zero-default factor with positive mass, the values over all assignments sum to one and every value is the original divided by the original total.", "quantifier": "all factors with positive finite mass", "why_tests_cant": "all tables", "anchors": ["veroku/factors/sparse_categorical.py:SparseCategorical.normalize", "veroku/factors/sparse_categorical.py:SparseCategorical.weight"]}
{"id": "C10", "title": "Sparse equals is symmetric and only accepts close functions", "statement": "equals of sparse zero-default factors is symmetric, true on copies and reorderings, and when it returns True the log values agree within tolerance at every assignment.", "quantifier": "all pairs of factors, all tolerances, all assignments", "why_tests_cant": "all pairs of tables and tolerances", "anchors": ["veroku/factors/sparse_categorical.py:SparseCategorical.equals", "veroku/factors/sparse_categorical.py:SparseCategorical._all_non_default_equal"]}
{"id": "C11", "title": "Sparse KL divergence is exact, non-negative and never raises 'Negative KLD'", "statement": "kl_divergence of sparse zero-default factors equals the sum over all assignments of p*log(p/q) of the normalised factors, is never negative in exact arithmetic, and is zero only when the normalised factors coincide; distance_from_vacuous equals log(N) minus the entropy.", "quantifier": "all pairs of factors with the same scope and positive mass", "why_tests_cant": "all tables", "anchors": ["veroku/factors/sparse_categorical.py:SparseCategorical.kl_divergence", "veroku/factors/sparse_categorical.py:SparseCategorical._raw_kld", "veroku/factors/sparse_categorical.py:SparseCategorical.distance_from_vacuous"]}
{"id": "C12", "title": "Results do not depend on hash seed", "statement": "The functions denoted by the results of sparse multiply, divide, cancel and marginalize are the same for every iteration order of Python sets.", "quantifier": "all operands, all set-iteration orders (PYTHONHASHSEED)", "why_tests_cant": "a test process sees one hash seed", "anchors": ["veroku/factors/sparse_categorical.py:_apply_binary_operator", "veroku/factors/_factor.py:get_marginal_vars"]}
{"id": "C13", "title": "Sparse operations respect a user-chosen default", "statement": "multiply, marginalize, reduce and reorder of sparse factors with a non-zero default treat missing entries as having the default value.", "quantifier": "all factors with any default", "why_tests_cant": "the documented default_log_prob parameter is only tested with defaults of -inf in these operations", "anchors": ["veroku/factors/sparse_categorical.py:SparseCategorical.__init__", "veroku/factors/sparse_categorical.py:SparseCategorical.multiply", "veroku/factors/sparse_categorical.py:SparseCategorical.marginalize"]}
{"id": "C14", "title": "Dense construction from a probability table", "statement": "Constructing a dense categorical from a table makes every listed full assignment have its listed probability and every unlisted one probability zero, independent of listing order, and raises IndexError exactly when some listed assignment is out of range (negative indices wrap).", "quantifier": "all tables, cardinalities, assignments", "why_tests_cant": "all tables and index values", "anchors": ["veroku/factors/categorical.py:Categorical.__init__"]}
{"id": "C15", "title": "Dense multiply is the pointwise product", "statement": "Dense multiply succeeds iff shared cardinalities and names agree, its scope is the union, and its log value at each joint assignment is the sum of the operands' log values.", "quantifier": "all pairs of factors and scopes, all joint assignments", "why_tests_cant": "all scope relations, axis orders and shapes", "anchors": ["veroku/factors/categorical.py:Categorical.multiply", "veroku/factors/categorical.py:Categorical.tensor_operation"]}
{"id": "C16", "title": "Dense divide is the pointwise quotient, and inverts multiply", "statement": "Dense divide by a factor with scope inside the scope gives the difference of log values at each assignment; (a*b)/b has the values of a where b is finite; dividing by a factor with a foreign variable raises KeyError.", "quantifier": "all pairs of factors, all assignments", "why_tests_cant": "all shapes and orders", "anchors": ["veroku/factors/categorical.py:Categorical.divide"]}
{"id": "C17", "title": "Dense cancel: 0/0 is 0 for any scope", "statement": "Dense cancel by a factor with scope inside the scope gives the quotient with 0/0 = 0 at every assignment and never raises.", "quantifier": "all pairs of factors with nested scopes, all zero patterns", "why_tests_cant": "tests use equal scopes or square shapes only; misaligned shapes need other cardinalities", "anchors": ["veroku/factors/categorical.py:Categorical.cancel", "veroku/_cg_helpers/_cluster.py:receive_message"]}
{"id": "C18", "title": "Dense marginalize sums out exactly the dropped variables", "statement": "Dense marginalize returns, for every requested order of kept variables and for keep=True and keep=False, the factor whose value at each assignment is the sum over the dropped variables.", "quantifier": "all factors, all kept subsets and orders, all assignments, all hash seeds", "why_tests_cant": "tests keep one variable only; the order of a kept list and hash seeds are unbounded", "anchors": ["veroku/factors/categorical.py:Categorical.marginalize", "veroku/factors/_factor.py:get_marginal_vars"]}
{"id": "C19", "title": "Dense reduce is restriction to the evidence", "statement": "Dense reduce gives the factor over the unobserved variables, in scope order, whose value at each assignment is the original one with the evidence substituted; it raises IndexError exactly for out-of-range evidence.", "quantifier": "all factors, evidence lists and assignments", "why_tests_cant": "all tables and evidence", "anchors": ["veroku/factors/categorical.py:Categorical.reduce"]}
{"id": "C20", "title": "Dense reorder preserves the function", "statement": "reorder succeeds exactly for permutations of the scope and does not change the value at any assignment.", "quantifier": "all factors, all orders, all assignments", "why_tests_cant": "all permutations and shapes", "anchors": ["veroku/factors/categorical.py:Categorical.reorder"]}
{"id": "C21", "title": "Dense potential does not depend on the order in which the caller lists the variables", "statement": "potential(vrs, assignment) returns the probability at the assignment mapping vrs[i] to assignment[i], for every order of vrs.", "quantifier": "all factors, orders and assignments", "why_tests_cant": "all orders", "anchors": ["veroku/factors/categorical.py:Categorical.potential"]}
{"id": "C22", "title": "Dense argmax returns the first maximiser", "statement": "argmax returns an in-range assignment whose value is at least every other value and strictly greater than every value earlier in row-major order.", "quantifier": "all tensors without NaN", "why_tests_cant": "all tensors", "anchors": ["veroku/factors/categorical.py:Categorical.argmax"]}
{"id": "C23", "title": "Dense normalize yields total mass one and preserves ratios", "statement": "After normalize of a dense factor with positive finite mass the probabilities sum to one and each is the original over the total.", "quantifier": "all factors with positive finite mass", "why_tests_cant": "all tensors", "anchors": ["veroku/factors/categorical.py:Categorical.normalize"]}
{"id": "C24", "title": "Dense KL divergence is exact, non-negative and zero only for equal distributions", "statement": "kl_divergence equals the sum over assignments of p*log(p/q) regardless of the variable orders of the operands, is never negative in exact arithmetic (so the 'Negative KLD' error is unreachable), and is zero only if the normalised factors coincide; distance_from_vacuous is log N minus entropy and lies between 0 and log N.", "quantifier": "all pairs of factors with the same scope, all orders", "why_tests_cant": "all tensors", "anchors": ["veroku/factors/categorical.py:Categorical.kl_divergence", "veroku/factors/categorical.py:Categorical._raw_kld", "veroku/factors/categorical.py:Categorical.distance_from_vacuous"]}
{"id": "C25", "title": "Dense equals", "statement": "equals is true on any reordering of the same factor, false for different scopes, and when true the log values agree within the tolerance at every assignment; it is symmetric.", "quantifier": "all pairs of factors and tolerances", "why_tests_cant": "all pairs", "anchors": ["veroku/factors/categorical.py:Categorical.equals"]}
{"id": "C26", "title": "Dense and sparse categoricals agree", "statement": "A dense and a sparse categorical that denote the same function keep denoting the same function after multiply, divide, reduce, reorder and normalize.", "quantifier": "all pairs of equivalent factors, all operations", "why_tests_cant": "cross-implementation equivalence over all inputs", "anchors": ["veroku/factors/categorical.py:Categorical", "veroku/factors/sparse_categorical.py:SparseCategorical"]}
{"id": "C27", "title": "Assignment names follow their variables", "statement": "Through multiply, divide, cancel, reduce, marginalize, reorder and copy every variable keeps its own tuple of assignment names; combining factors that name a shared variable's values differently raises InconsistentAssignmentNamesError.", "quantifier": "all factors and name lists", "why_tests_cant": "all name lists and scopes", "anchors": ["veroku/factors/categorical.py:_check_consistent_assignment_names", "veroku/factors/categorical.py:Categorical.multiply"]}
{"id": "C28", "title": "Gaussian covariance and canonical forms denote the same function", "statement": "Converting a Gaussian with positive definite covariance to canonical form (or back) does not change its potential at any point, and converting there and back returns the original covariance, mean and weight.", "quantifier": "all dimensions, all positive definite matrices, means, weights, all points", "why_tests_cant": "real matrices of every dimension", "anchors": ["veroku/factors/gaussian.py:Gaussian._update_canform", "veroku/factors/gaussian.py:Gaussian._update_covform", "veroku/factors/gaussian.py:Gaussian.log_potential"]}
{"id": "C29", "title": "Gaussian weight is the integral of the potential", "statement": "get_weight returns the Lebesgue integral of the potential over all of R^n for every Gaussian with positive definite precision.", "quantifier": "all dimensions and parameters", "why_tests_cant": "tests integrate numerically in one and two dimensions", "anchors": ["veroku/factors/gaussian.py:Gaussian.get_weight", "veroku/factors/gaussian.py:Gaussian.get_log_weight"]}
{"id": "C30", "title": "Gaussian multiply is the pointwise product", "statement": "The log potential of the product equals the sum of the log potentials at every point for any relation between the scopes; the scope is the union.", "quantifier": "all Gaussians, scopes and points", "why_tests_cant": "all dimensions, scopes and values", "anchors": ["veroku/factors/gaussian.py:Gaussian.multiply", "veroku/factors/gaussian.py:Gaussian._absorb_or_cancel", "veroku/factors/_factor_utils.py:indexed_square_matrix_operation", "veroku/factors/_factor_utils.py:indexed_column_vector_operation"]}
{"id": "C31", "title": "Gaussian divide inverts multiply", "statement": "The log potential of a quotient is the difference of log potentials at every point, and (a*b)/b denotes a.", "quantifier": "all Gaussians, scopes and points", "why_tests_cant": "all dimensions", "anchors": ["veroku/factors/gaussian.py:Gaussian.divide"]}
{"id": "C32", "title": "Gaussian marginalize is integration", "statement": "For every Gaussian whose integrated-out precision block is positive definite, the potential of the marginal at each point of the kept variables is the Lebesgue integral of the potential over the dropped variables, in canonical and in covariance form, in any requested order.", "quantifier": "all dimensions, parameters, kept subsets/orders, points", "why_tests_cant": "integrals in every dimension", "anchors": ["veroku/factors/gaussian.py:Gaussian.marginalize", "veroku/factors/gaussian.py:Gaussian._canform_marginalise"]}
{"id": "C33", "title": "Gaussian reduce is restriction to the evidence", "statement": "Observing a proper subset of variables gives the potential with the observed values substituted, at every point; observing every variable succeeds and gives a constant.", "quantifier": "all Gaussians, evidence and points", "why_tests_cant": "all dimensions and evidence", "anchors": ["veroku/factors/gaussian.py:Gaussian.reduce", "veroku/factors/gaussian.py:Gaussian._get_observation_reduced_canonical_vars"]}
{"id": "C34", "title": "Gaussian parameter reordering preserves the function", "statement": "Reordering parameters to any permutation of the scope preserves the potential at every named point in both forms, and fails for anything else.", "quantifier": "all Gaussians and permutations", "why_tests_cant": "all permutations and dimensions", "anchors": ["veroku/factors/gaussian.py:Gaussian._reorder_parameters"]}
{"id": "C35", "title": "Gaussian normalize integrates to one", "statement": "normalize returns a Gaussian whose potential integrates to one and is a constant multiple of the original.", "quantifier": "all Gaussians with positive definite precision", "why_tests_cant": "integrals in every dimension", "anchors": ["veroku/factors/gaussian.py:Gaussian.normalize"]}
{"id": "C36", "title": "Gaussian KL divergence is exact, non-negative, and independent of variable order", "statement": "kl_divergence returns the closed form KL divergence of the normalised factors, is never negative, and does not depend on the parameter orders of the two operands.", "quantifier": "all pairs of Gaussians over the same scope, all parameter orders", "why_tests_cant": "tests use operands in the same order", "anchors": ["veroku/factors/gaussian.py:Gaussian.kl_divergence"]}
{"id": "C37", "title": "Gaussian equals has no observable side effect", "statement": "equals never changes either operand as seen through var_names, get_mean, get_cov and log_potential.", "quantifier": "all pairs of Gaussians", "why_tests_cant": "mutation of an argument depends on tolerance outcomes", "anchors": ["veroku/factors/gaussian.py:Gaussian.equals", "veroku/factors/gaussian.py:Gaussian._canform_equals", "veroku/factors/gaussian.py:Gaussian._covform_equals"]}
{"id": "C38", "title": "Gaussian cached parameter forms never disagree", "statement": "In every history of Gaussian operations and accessors, whenever a Gaussian holds both parameter forms they denote the same function, so accessors never change what the factor denotes.", "quantifier": "all histories of operations", "why_tests_cant": "arbitrary histories of lazy updates", "anchors": ["veroku/factors/gaussian.py:Gaussian._add_log_weight", "veroku/factors/gaussian.py:Gaussian.copy", "veroku/factors/gaussian.py:Gaussian._destroy_canform", "veroku/factors/gaussian.py:Gaussian._update_canform"]}
{"id": "C39", "title": "Vacuous Gaussians", "statement": "A Gaussian reported vacuous is a constant function; distance and marginalisation treat it consistently with that.", "quantifier": "all Gaussians", "why_tests_cant": "all parameters", "anchors": ["veroku/factors/gaussian.py:Gaussian.is_vacuous", "veroku/factors/gaussian.py:Gaussian.marginalize", "veroku/factors/gaussian.py:Gaussian.make_vacuous"]}
{"id": "C40", "title": "make_linear_gaussian is the conditional density of y given x", "statement": "The factor's potential at (x,y) is the normal density of y with mean A x and covariance N, so it integrates to one over y for every x; it works for every matrix A with as many columns as conditioning variables.", "quantifier": "all A, all positive definite N, all x and y", "why_tests_cant": "all dimensions and matrices", "anchors": ["veroku/factors/gaussian.py:make_linear_gaussian"]}
{"id": "C41", "title": "Factors made from Gaussian templates denote the template's parameters", "statement": "make_factor gives a factor with the template's precision, h and g and behaves like a Gaussian constructed directly with them (including under marginalize).", "quantifier": "all template parameters and names", "why_tests_cant": "all parameters", "anchors": ["veroku/factors/gaussian.py:GaussianTemplate.make_factor", "veroku/factors/gaussian.py:make_linear_gaussian_cpd_template"]}
{"id": "C42", "title": "Cluster ids are always unique", "statement": "Constructing a cluster graph never fails with 'Non-unique cluster ids', for any factors and variable names.", "quantifier": "all factor lists, all variable names (any strings)", "why_tests_cant": "names are arbitrary strings, including ones containing '#' and ','", "anchors": ["veroku/cluster_graph.py:ClusterGraph._build_graph", "veroku/_cg_helpers/_cluster.py:Cluster.__init__"]}
{"id": "C43", "title": "Absorbing subset factors preserves the product", "statement": "The product of the cluster factors after absorption equals the product of the input factors at every assignment; every factor is used exactly once; every resulting scope is the scope of some input.", "quantifier": "all factor lists and all orders", "why_tests_cant": "all lists", "anchors": ["veroku/cluster_graph.py:_absorb_subset_factors"]}
{"id": "C44", "title": "Evidence is applied to every factor that mentions it", "statement": "The product of the initial cluster potentials equals the product of the input factors with the evidence substituted; no cluster mentions an evidence variable.", "quantifier": "all factor lists and evidence", "why_tests_cant": "all lists and evidence", "anchors": ["veroku/cluster_graph.py:_evidence_reduce_factors", "veroku/factors/_factor_utils.py:get_subset_evidence"]}
{"id": "C45", "title": "Running intersection property", "statement": "In the built graph, for every non-evidence variable the edges whose sepset contains it form a tree that connects exactly the clusters containing it (if at least two do).", "quantifier": "all factor lists and all variables", "why_tests_cant": "graph structure for every list of scopes", "anchors": ["veroku/cluster_graph.py:ClusterGraph._get_running_intersection_sepsets", "veroku/cluster_graph.py:ClusterGraph._get_vars_min_spanning_trees"]}
{"id": "C46", "title": "Sepsets are sound", "statement": "Every edge's sepset is non-empty, duplicate-free, contained in both cluster scopes, free of evidence variables, the same in both directions; each edge has exactly two message paths.", "quantifier": "all factor lists and evidence", "why_tests_cant": "all graphs", "anchors": ["veroku/cluster_graph.py:ClusterGraph._build_graph", "veroku/cluster_graph.py:ClusterGraph._set_non_rip_sepsets_dict"]}
{"id": "C47", "title": "Message passing always terminates within its budget", "statement": "process_graph passes at most max_iter times the number of message paths messages, the counter num_messages_passed grows by exactly the number passed, and one convergence distance is recorded per message.", "quantifier": "all graphs, tolerances, budgets and gain histories", "why_tests_cant": "all schedules", "anchors": ["veroku/cluster_graph.py:ClusterGraph.process_graph"]}
{"id": "C48", "title": "Early stop means convergence", "statement": "If process_graph stops before using its budget then for every path the divergence between its last sent message and the message its sender would send now is at most tol (no stale gains).", "quantifier": "all graphs, all schedules", "why_tests_cant": "staleness depends on the whole history", "anchors": ["veroku/cluster_graph.py:ClusterGraph.process_graph", "veroku/cluster_graph.py:_GraphMessagePath.pass_next_message", "veroku/cluster_graph.py:_GraphMessagePath.recompute_next_message"]}
{"id": "C49", "title": "Greedy schedule", "statement": "Every message passed has the maximum information gain among all paths at that moment.", "quantifier": "all graphs and histories", "why_tests_cant": "all schedules", "anchors": ["veroku/cluster_graph.py:ClusterGraph.process_graph"]}
{"id": "C50", "title": "Cluster belief invariant", "statement": "After any sequence of message passes each cluster's factor equals its initial factor times the last message received from each neighbour, at every assignment (zeros included).", "quantifier": "all graphs, all message sequences, all assignments", "why_tests_cant": "all schedules and zero patterns", "anchors": ["veroku/_cg_helpers/_cluster.py:Cluster.receive_message", "veroku/_cg_helpers/_cluster.py:Cluster.make_message"]}
{"id": "C51", "title": "Posterior joint is invariant", "statement": "get_posterior_joint equals the product of the initial factors after any number of messages, and is available at any time after construction.", "quantifier": "all graphs, all schedules", "why_tests_cant": "all schedules, including before processing and partially processed graphs", "anchors": ["veroku/cluster_graph.py:ClusterGraph.get_posterior_joint", "veroku/cluster_graph.py:ClusterGraph._last_passed_message_factors"]}
{"id": "C52", "title": "Exact marginals on trees at convergence", "statement": "When the cluster graph is a tree and process_graph has converged, get_marginal returns the marginal of the product of all factors (up to scale), for any schedule.", "quantifier": "all tree-structured graphs, all schedules, all assignments", "why_tests_cant": "all trees, tables and schedules", "anchors": ["veroku/cluster_graph.py:ClusterGraph.get_marginal", "veroku/cluster_graph.py:ClusterGraph.process_graph"]}
{"id": "C53", "title": "get_marginal is answered by the first cluster containing the variables and fails otherwise", "statement": "get_marginal raises ValueError exactly when no cluster scope contains the requested variables, and never changes the graph.", "quantifier": "all graphs, requests", "why_tests_cant": "all graphs", "anchors": ["veroku/cluster_graph.py:ClusterGraph.get_marginal"]}
{"id": "C54", "title": "Processing twice is safe", "statement": "Calling process_graph again on a processed graph never fails and, on a converged graph, changes no belief.", "quantifier": "all graphs, evidence", "why_tests_cant": "histories of calls", "anchors": ["veroku/cluster_graph.py:ClusterGraph.process_graph"]}
{"id": "C55", "title": "Messages are delivered only to their addressee", "statement": "receive_message accepts exactly messages addressed to the cluster, and process_graph never triggers that assertion.", "quantifier": "all clusters, messages and schedules", "why_tests_cant": "all schedules", "anchors": ["veroku/_cg_helpers/_cluster.py:Cluster.receive_message"]}
{"id": "C56", "title": "Gaussian mixture multiply is the pointwise product", "statement": "The potential of the product of two mixtures (or a mixture and a Gaussian) is the product of the potentials at every point, with n*m components.", "quantifier": "all mixtures and points", "why_tests_cant": "all component lists", "anchors": ["veroku/factors/experimental/gaussian_mixture.py:GaussianMixture.multiply"]}
{"id": "C57", "title": "Gaussian mixture reduce and marginalize act on the whole mixture", "statement": "reduce substitutes evidence in, and marginalize integrates, the mixture potential.", "quantifier": "all mixtures, evidence, subsets and points", "why_tests_cant": "all component lists and dimensions", "anchors": ["veroku/factors/experimental/gaussian_mixture.py:GaussianMixture.reduce", "veroku/factors/experimental/gaussian_mixture.py:GaussianMixture.marginalize"]}
{"id": "C58", "title": "Gaussian mixture normalize", "statement": "normalize makes the total weight one and preserves the ratio of potentials.", "quantifier": "all mixtures", "why_tests_cant": "all component lists", "anchors": ["veroku/factors/experimental/gaussian_mixture.py:GaussianMixture.normalize"]}
{"id": "C59", "title": "Moment matching preserves weight, mean and covariance", "statement": "moment_match_to_single_gaussian returns a Gaussian with the mixture's total weight, mean and covariance.", "quantifier": "all mixtures of any dimension", "why_tests_cant": "all component lists and dimensions", "anchors": ["veroku/factors/experimental/gaussian_mixture.py:GaussianMixture.moment_match_to_single_gaussian"]}
{"id": "C60", "title": "Gaussian mixture equality ignores component order and only accepts equal mixtures", "statement": "equals is true exactly when the two component lists match up to reordering (within tolerance), hence symmetric.", "quantifier": "all pairs of mixtures", "why_tests_cant": "needs at least two components in particular orders", "anchors": ["veroku/factors/experimental/gaussian_mixture.py:GaussianMixture.equals"]}
{"id": "C61", "title": "Gaussian mixture divide by a Gaussian is the pointwise quotient", "statement": "Dividing by a Gaussian or one-component mixture gives the quotient of potentials at every point.", "quantifier": "all mixtures and points", "why_tests_cant": "all component lists", "anchors": ["veroku/factors/experimental/gaussian_mixture.py:GaussianMixture.divide"]}
{"id": "C62", "title": "Splitting a one dimensional Gaussian preserves its moments", "statement": "_split_gaussian returns three components with the weight, mean and variance of the original.", "quantifier": "all one-dimensional Gaussians", "why_tests_cant": "all parameters", "anchors": ["veroku/factors/gaussian.py:Gaussian._split_gaussian"]}
{"id": "C63", "title": "Factorised factor multiply and joint", "statement": "The joint distribution of a factorised factor is the product of its factors, multiply multiplies the joint, and var_names covers every factor.", "quantifier": "all factorised factors and operands", "why_tests_cant": "all lists", "anchors": ["veroku/factors/experimental/factorised_factor.py:FactorizedFactor.multiply", "veroku/factors/experimental/factorised_factor.py:FactorizedFactor.joint_distribution"]}
{"id": "C64", "title": "Factorised factor divide", "statement": "divide divides the joint at every point, or raises when the scope is not covered.", "quantifier": "all factorised factors and operands", "why_tests_cant": "all lists", "anchors": ["veroku/factors/experimental/factorised_factor.py:FactorizedFactor.divide"]}
{"id": "C65", "title": "Factorised factor marginalize equals marginalising the joint", "statement": "marginalize of a factorised factor denotes the marginal of its joint distribution.", "quantifier": "all factorised factors and subsets", "why_tests_cant": "needs chains of three factors", "anchors": ["veroku/factors/experimental/factorised_factor.py:FactorizedFactor.marginalize", "veroku/factors/experimental/factorised_factor.py:FactorizedFactor._merge_factors_with_shared_scope"]}
{"id": "C66", "title": "Factorised factor reduce equals reducing the joint", "statement": "reduce of a factorised factor denotes the joint with evidence substituted and never fails for evidence inside the scope.", "quantifier": "all factorised factors and evidence", "why_tests_cant": "all lists and evidence", "anchors": ["veroku/factors/experimental/factorised_factor.py:FactorizedFactor.reduce"]}
{"id": "C67", "title": "Factorised factor equality", "statement": "equals is true only if the joints coincide (within tolerance).", "quantifier": "all pairs", "why_tests_cant": "needs repeated factors", "anchors": ["veroku/factors/experimental/factorised_factor.py:FactorizedFactor.equals"]}
{"id": "C68", "title": "Factorised factor normalize", "statement": "normalize works for any number of factors.", "quantifier": "all factorised factors", "why_tests_cant": "needs at least two factors", "anchors": ["veroku/factors/experimental/factorised_factor.py:FactorizedFactor.normalize", "veroku/factors/experimental/factorised_factor.py:FactorizedFactor._merge_dependent_factors"]}
{"id": "C69", "title": "Sigma points reproduce mean and covariance", "statement": "The mean and (biased) covariance of the sigma points of a Gaussian are its mean and covariance, in every dimension.", "quantifier": "all Gaussians with positive definite covariance", "why_tests_cant": "all dimensions", "anchors": ["veroku/factors/_sigma_points.py:get_sigma_points_array", "veroku/factors/_sigma_points.py:sigma_point_array_to_gaussian_params"]}
{"id": "C70", "title": "Sigma point transform is exact for affine maps", "statement": "For an affine transform the joint parameters computed from sigma points are the exact joint mean and covariance of (x, Ax+b).", "quantifier": "all affine maps and Gaussians", "why_tests_cant": "all dimensions and maps", "anchors": ["veroku/factors/_sigma_points.py:sigma_points_array_to_joint_params"]}
{"id": "C71", "title": "Non-linear Gaussian bookkeeping", "statement": "multiply and divide route a factor to the conditional or conditioning part by scope, divide undoes multiply, and any other scope raises ValueError.", "quantifier": "all factors and scopes", "why_tests_cant": "all scopes and histories", "anchors": ["veroku/factors/experimental/nonlinear_gaussian.py:NonLinearGaussian.multiply", "veroku/factors/experimental/nonlinear_gaussian.py:NonLinearGaussian.divide"]}
{"id": "C72", "title": "Non-linear Gaussian joint is available exactly when the conditioning variables are determined", "statement": "The joint is vacuous when conditioning factor and evidence do not cover the conditioning variables and otherwise is computed without failing.", "quantifier": "all factors and evidence", "why_tests_cant": "all coverage patterns", "anchors": ["veroku/factors/experimental/nonlinear_gaussian.py:NonLinearGaussian._recompute_joint"]}
{"id": "C73", "title": "Named matrix and vector operations align by name", "statement": "indexed_square_matrix_operation and indexed_column_vector_operation give at each pair (name) of names the operator applied to the operands' entries for those names, with zero for absent names.", "quantifier": "all matrices, name lists and operators", "why_tests_cant": "all name orders", "anchors": ["veroku/factors/_factor_utils.py:indexed_square_matrix_operation", "veroku/factors/_factor_utils.py:indexed_column_vector_operation"]}
{"id": "C74", "title": "remove_duplicate_values", "statement": "The result is a subsequence whose elements are pairwise more than tol apart and every input element is within tol of some result element.", "quantifier": "all lists and tolerances", "why_tests_cant": "all lists", "anchors": ["veroku/factors/_factor_utils.py:remove_duplicate_values"]}
{"id": "C75", "title": "Evidence subsetting", "statement": "get_subset_evidence returns exactly the evidence of the subset variables, paired correctly.", "quantifier": "all dictionaries and variable lists", "why_tests_cant": "all inputs", "anchors": ["veroku/factors/_factor_utils.py:get_subset_evidence"]}
{"id": "C76", "title": "Template formattability check", "statement": "formattable(d) is true exactly when make_factor's name formatting with d succeeds.", "quantifier": "all templates and dictionaries", "why_tests_cant": "all format strings", "anchors": ["veroku/factors/_factor_template.py:FactorTemplate.formattable", "veroku/factors/_factor_utils.py:format_list_elements"]}
{"id": "C77", "title": "Animation substring check", "statement": "contains_non_overlapping_substrings(a,b,s) is true only if a and b occur at non-overlapping positions of s, and the sepset node name is the same for both directions of an edge.", "quantifier": "all strings", "why_tests_cant": "all strings", "anchors": ["veroku/_cg_helpers/_animation.py:contains_non_overlapping_substrings", "veroku/_cg_helpers/_animation.py:make_sepset_node_name"]}
{"id": "C78", "title": "Inference never fails on possible evidence", "statement": "If some joint assignment consistent with all evidence has positive probability under the product of the input factors, then constructing the cluster graph, passing any message at any time, processing the graph and querying any unobserved variables of one input factor return normally.", "quantifier": "all lists of sparse categorical factors with consistent cardinalities, all evidence, all hash orders, all message schedules", "why_tests_cant": "quantifies over all factor lists and over every execution; failures arise from 0/0 and missing rows only on particular zero patterns", "anchors": ["veroku/cluster_graph.py:ClusterGraph.__init__", "veroku/cluster_graph.py:ClusterGraph.process_graph", "veroku/cluster_graph.py:ClusterGraph.get_marginal", "veroku/factors/sparse_categorical.py:SparseCategorical"]}
{"id": "C79", "title": "Message passing on trees converges", "statement": "On a cluster graph whose edges form no cycle and with possible evidence, process_graph with tol >= 0 ends, given a large enough max_iter, with every information gain at most tol; for factors without zeros max_iter = number of clusters is large enough.", "quantifier": "all acyclic cluster graphs of sparse factors, all evidence, all starting states reachable by message passing, all queue orders", "why_tests_cant": "termination over all graphs and all greedy schedules", "anchors": ["veroku/cluster_graph.py:ClusterGraph.process_graph", "veroku/cluster_graph.py:ClusterGraph._sort_message_passing_queue", "veroku/_cg_helpers/_cluster.py:Message"]}
{"id": "C80", "title": "Gaussian equals compares parameters by variable name", "statement": "equals answers yes only if both factors have the same variables and are both vacuous or agree, entry by entry for each variable name, in canonical or in covariance parameters within the tolerances; if both kinds of parameters agree it answers yes.", "quantifier": "all pairs of Gaussians, all parameter orders, all tolerances", "why_tests_cant": "all parameters, orders and tolerances", "anchors": ["veroku/factors/gaussian.py:Gaussian.equals", "veroku/factors/gaussian.py:Gaussian._canform_equals", "veroku/factors/gaussian.py:Gaussian._covform_equals"]}
{"id": "C81", "title": "Comparing two mixtures does not change their potentials", "statement": "After a.equals(b) on Gaussian mixtures the potentials of a and of b, evaluated with values in the order of their variable names, are what they were before.", "quantifier": "all pairs of mixtures over the same variables, in any variable orders", "why_tests_cant": "needs particular variable orders and a check of the argument after the comparison", "anchors": ["veroku/factors/experimental/gaussian_mixture.py:GaussianMixture.equals", "veroku/factors/gaussian.py:Gaussian.equals"]}
{"id": "C82", "title": "A copy of a mixture behaves like the original", "statement": "copy returns a mixture with the same variables, potential and behaviour (including the method used to divide by a mixture).", "quantifier": "all mixtures and cancel methods", "why_tests_cant": "all component lists and settings", "anchors": ["veroku/factors/experimental/gaussian_mixture.py:GaussianMixture.copy"]}
{"id": "C83", "title": "A mixture made from scikit-learn parameters is the weighted sum of normal densities", "statement": "from_sklearn_gmm returns a mixture whose potential at x is the sum of weight times normal density over the components.", "quantifier": "all means, positive definite covariances, positive weights, dimensions and points", "why_tests_cant": "all parameters and points", "anchors": ["veroku/factors/experimental/gaussian_mixture.py:GaussianMixture.from_sklearn_gmm"]}
{"id": "C84", "title": "Non-linear Gaussian with an affine transform is exact", "statement": "If the transform computes an affine function of the conditioning variables, the joint distribution's density is the conditioning factor times the normal density of the conditional variables around the affine function, times the update factor and the weight, all at the evidence.", "quantifier": "all numbers and orders of variables, all affine transforms, all positive definite noise covariances, all conditioning and update factors, all evidence that leaves a variable of the conditioning factor", "why_tests_cant": "equality of functions for all parameters, orders and evidence", "anchors": ["veroku/factors/experimental/nonlinear_gaussian.py:NonLinearGaussian.joint_distribution", "veroku/factors/experimental/nonlinear_gaussian.py:NonLinearGaussian._recompute_joint", "veroku/factors/experimental/_sigma_points.py:sigma_points_array_to_joint_params"]}
{"id": "C85", "title": "Observing variables of a non-linear Gaussian slices its joint", "statement": "For affine transforms, the joint distribution after reduce is the joint distribution before, at the observed values, over the variables that remain.", "quantifier": "all affine non-linear Gaussians, earlier evidence and new evidence about other variables", "why_tests_cant": "all splits of the evidence over several calls", "anchors": ["veroku/factors/experimental/nonlinear_gaussian.py:NonLinearGaussian.reduce", "veroku/factors/experimental/nonlinear_gaussian.py:NonLinearGaussian.joint_distribution"]}
{"id": "C86", "title": "Marginals of a non-linear Gaussian are integrals of its joint", "statement": "For affine transforms, marginalize returns the integral of the joint (at the evidence) over the variables not kept, whether the variables are given as those to keep or as those to drop; evidence and weight are respected also while the joint cannot be computed.", "quantifier": "all affine non-linear Gaussians, evidence and variables", "why_tests_cant": "equality with an integral for all parameters", "anchors": ["veroku/factors/experimental/nonlinear_gaussian.py:NonLinearGaussian.marginalize"]}
{"id": "C87", "title": "Exact marginals on trees of Gaussian factors", "statement": "When a cluster graph of Gaussian factors has no cycle, no message has new content and the beliefs can be normalised, get_marginal of unobserved variables returns the integral of the product of all factors (given the evidence) over the other unobserved variables, up to scale.", "quantifier": "all lists of Gaussian factors built by any calls, in either form, all evidence, all message schedules, all queries", "why_tests_cant": "equality with an integral for all parameters, graphs and schedules", "anchors": ["veroku/cluster_graph.py:ClusterGraph.__init__", "veroku/cluster_graph.py:ClusterGraph.process_graph", "veroku/cluster_graph.py:ClusterGraph.get_marginal", "veroku/factors/gaussian.py:Gaussian"]}
{"id": "C88", "title": "Inference with normalisable Gaussian factors never fails", "statement": "If every Gaussian factor has a finite integral and keeps an unobserved variable, building the graph, passing any message at any time, processing the graph and querying unobserved variables of one input factor return, and all messages and beliefs keep finite integrals, also on graphs with cycles.", "quantifier": "all lists of such factors, all evidence, all executions", "why_tests_cant": "singular or indefinite matrices appear only on particular message sequences; the claim covers all of them", "anchors": ["veroku/cluster_graph.py:ClusterGraph.__init__", "veroku/cluster_graph.py:ClusterGraph.process_graph", "veroku/cluster_graph.py:ClusterGraph.get_marginal", "veroku/factors/gaussian.py:Gaussian"]}
{"id": "C89", "title": "Gaussian message passing on trees converges", "statement": "On a cluster graph of normalisable Gaussian factors without cycles, process_graph with tol >= 0 and max_iter at least the number of clusters ends with every information gain at most tol; and a bounded number of messages leads from any state to one where no message has new content.", "quantifier": "all such graphs, evidence, starting states and queue orders", "why_tests_cant": "termination for all graphs and schedules", "anchors": ["veroku/cluster_graph.py:ClusterGraph.__init__", "veroku/cluster_graph.py:ClusterGraph.process_graph", "veroku/cluster_graph.py:ClusterGraph.get_marginal", "veroku/factors/gaussian.py:Gaussian", "veroku/_cg_helpers/_cluster.py:Message"]}
{"id": "C90", "title": "Product of a non-linear Gaussian mixture and a Gaussian mixture", "statement": "multiply by a Gaussian mixture over conditional or over conditioning variables returns a mixture of non-linear Gaussians whose function is the product of the two functions; the operand keeps its potential; any other scope raises ValueError.", "quantifier": "all mixtures built by any calls, all Gaussian mixtures, all points", "why_tests_cant": "equality of functions for all parameters, numbers of components and histories", "anchors": ["veroku/factors/experimental/nonlinear_gaussian.py:NonLinearGaussianMixture.multiply", "veroku/factors/experimental/nonlinear_gaussian.py:NonLinearGaussian.multiply"]}
{"id": "C91", "title": "Joint distribution of a non-linear Gaussian mixture", "statement": "For affine transforms joint_distribution is the Gaussian mixture whose potential is the sum of the exact joint densities of the components at their evidence, over the unobserved variables.", "quantifier": "all mixtures of affine components with computable joints, all points", "why_tests_cant": "equality of functions for all parameters and evidence; depends on variable orders of intermediate results", "anchors": ["veroku/factors/experimental/nonlinear_gaussian.py:NonLinearGaussianMixture.joint_distribution", "veroku/factors/experimental/nonlinear_gaussian.py:NonLinearGaussian.joint_distribution"]}
{"id": "C92", "title": "Evidence on a non-linear Gaussian mixture", "statement": "For affine transforms, when the joint distribution can be read, reduce followed by joint_distribution gives the joint distribution at the observed values over the remaining variables.", "quantifier": "all mixtures of affine components with the same conditional, conditioning factor and observed variables, all evidence that leaves a conditioning factor variable", "why_tests_cant": "equality of functions for all parameters and observed values", "anchors": ["veroku/factors/experimental/nonlinear_gaussian.py:NonLinearGaussianMixture.reduce", "veroku/factors/experimental/nonlinear_gaussian.py:NonLinearGaussianMixture.joint_distribution"]}
{"id": "C93", "title": "Marginals of a non-linear Gaussian mixture", "statement": "marginalize returns the integral of the joint over the other unobserved variables.", "quantifier": "all mixtures, all variables, keep or drop", "why_tests_cant": "integral over all reals for all parameters; shows that no input makes the method return", "anchors": ["veroku/factors/experimental/nonlinear_gaussian.py:NonLinearGaussianMixture.marginalize", "veroku/factors/experimental/nonlinear_gaussian.py:NonLinearGaussianMixture.joint_distribution"]}
{"id": "C94", "title": "Division of a non-linear Gaussian mixture", "statement": "Whenever dividing by a Gaussian that is not flagged vacuous returns, the function has been divided by it; dividing by a Gaussian mixture divides by a Gaussian with the integral and the first two moments of the mixture. Division by a factor over conditional variables returns if every component has an update factor and its joint is vacuous or computable.", "quantifier": "all mixtures and divisors, all points", "why_tests_cant": "equality of functions for all parameters and histories", "anchors": ["veroku/factors/experimental/nonlinear_gaussian.py:NonLinearGaussianMixture.divide", "veroku/factors/experimental/nonlinear_gaussian.py:NonLinearGaussian.divide"]}
{"id": "C95", "title": "Copies of non-linear Gaussian mixtures behave like the original", "statement": "copy has the same components and function, and its products are those of the original.", "quantifier": "all mixtures and operands", "why_tests_cant": "behaviour of the copy under later operations for all operands", "anchors": ["veroku/factors/experimental/nonlinear_gaussian.py:NonLinearGaussianMixture.copy", "veroku/factors/experimental/nonlinear_gaussian.py:NonLinearGaussianMixture.__init__", "veroku/factors/experimental/nonlinear_gaussian.py:NonLinearGaussianMixture.multiply"]}
{"id": "C96", "title": "Weights of non-linear Gaussians", "statement": "Adding a log weight w adds w to the log potential of the joint distribution and changes nothing else.", "quantifier": "all non-linear Gaussians with computable joint, any (non-linear) transform, all w", "why_tests_cant": "equality of functions for all transforms and parameters", "anchors": ["veroku/factors/experimental/nonlinear_gaussian.py:NonLinearGaussian.add_log_weight", "veroku/factors/experimental/nonlinear_gaussian.py:NonLinearGaussian.joint_distribution"]}
{"id": "C97", "title": "Exact marginals in trees of dense categorical factors", "statement": "After message passing on a cluster graph of dense Categorical factors without cycles has converged (all information gains zero), get_marginal returns a positive multiple of the exact posterior marginal of the queried variables.", "quantifier": "all dense factors with consistent cardinalities and value names (zeros allowed), all evidence of positive probability, all schedules, all queries", "why_tests_cant": "quantifies over all factors, graphs and message schedules; the defect shows only for some variable orders and hash seeds", "anchors": ["veroku/cluster_graph.py:ClusterGraph.process_graph", "veroku/cluster_graph.py:ClusterGraph.get_marginal", "veroku/factors/categorical.py:Categorical.marginalize", "veroku/factors/categorical.py:Categorical.cancel"]}
{"id": "C98", "title": "Inference with dense categorical factors does not fail", "statement": "For dense Categorical factors and evidence of positive probability, building the cluster graph, passing messages, process_graph and get_marginal return.", "quantifier": "all dense factors with consistent cardinalities and value names, all possible evidence, all graphs, all executions", "why_tests_cant": "absence of exceptions over all executions; the failure needs a zero in a message and a second message along the same path", "anchors": ["veroku/cluster_graph.py:ClusterGraph.process_graph", "veroku/_cluster.py:Cluster.receive_message", "veroku/factors/categorical.py:Categorical.cancel"]}
{"id": "C99", "title": "Message passing on trees of dense categorical factors terminates by itself", "statement": "On a cluster graph of dense Categorical factors without cycles, process_graph with any tol >= 0 and max_iter at least the number of clusters ends with every information gain at most tol.", "quantifier": "all dense factors, all tree-shaped graphs, all tolerances, from any reachable state", "why_tests_cant": "termination for all graphs and parameters", "anchors": ["veroku/cluster_graph.py:ClusterGraph.process_graph", "veroku/factors/categorical.py:Categorical.kl_divergence", "veroku/factors/categorical.py:Categorical.distance_from_vacuous"]}
{"id": "C100", "title": "No cluster is contained in another", "statement": "After a ClusterGraph is built, no cluster's scope is contained in the scope of another cluster: factors whose scope is a subset of another factor's are absorbed into such a factor.", "quantifier": "all lists of factors, all evidence and special evidence", "why_tests_cant": "depends on the containment pattern and the order of arbitrary factor lists", "anchors": ["veroku/cluster_graph.py:_absorb_subset_factors", "veroku/cluster_graph.py:ClusterGraph.__init__"]}
{"id": "C101", "title": "Calibrated clusters agree", "statement": "Once no pending message of a ClusterGraph carries information, the answer to a query does not depend on which cluster is asked: any two clusters that contain an unobserved variable give the same marginal of it up to scale, and two neighbouring clusters agree on every set of variables of their sepset - also on graphs with cycles, where the beliefs need not be exact.", "quantifier": "all lists of sparse categorical factors possible under the evidence, all lists of Gaussian factors that can be normalised, all evidence and special evidence, all message schedules, all pairs of clusters, graphs with or without cycles", "why_tests_cant": "get_marginal silently picks one containing cluster; agreement over all graphs, schedules and clusters is a calibration invariant", "anchors": ["veroku/cluster_graph.py:ClusterGraph.get_marginal", "veroku/cluster_graph.py:ClusterGraph.process_graph", "veroku/_cg_helpers/_cluster.py:Cluster.make_message"]}
{"id": "C102", "title": "The posterior does not depend on how the problem is written down", "statement": "On a converged cluster graph without cycles, get_marginal(vrs).normalize() is the posterior distribution of vrs given the observations. In particular it does not depend on the order in which the factors are listed, on the order of the queried variables, on the hash seed, on the message schedule, or on which observations are passed as evidence and which as special_evidence.", "quantifier": "all lists of sparse categorical factors possible under the observations and all lists of Gaussian factors that can be normalised, all permutations, all hash seeds, all schedules, all splits of the observations", "why_tests_cant": "the graphs built from permuted factors or from other splits of the evidence differ in clusters, edges and messages; agreement for all of them is a consequence of exactness", "anchors": ["veroku/cluster_graph.py:ClusterGraph.__init__", "veroku/cluster_graph.py:ClusterGraph.get_marginal", "veroku/factors/sparse_categorical.py:SparseCategorical.normalize", "veroku/factors/gaussian.py:Gaussian.normalize"]}
{"id": "C103", "title": "Parameters of a Gaussian are read as written", "statement": "The constructor of Gaussian accepts its parameters as numbers, lists (of lists) and arrays. The Gaussian that comes out has exactly the given entries, whichever of these forms is used for each parameter; parameters that do not have the shape of a square matrix, a vector or a number are rejected.", "quantifier": "all dimensions, all matrices, vectors and numbers, all forms of writing them, all nested lists and arrays of any shape", "why_tests_cant": "nested lists and arrays of any depth and shape, each of three converters and their combination", "anchors": ["veroku/factors/_factor_utils.py:make_square_matrix", "veroku/factors/_factor_utils.py:list_to_square_matrix", "veroku/factors/_factor_utils.py:make_column_vector", "veroku/factors/_factor_utils.py:make_scalar", "veroku/factors/gaussian.py:Gaussian.__init__"]}
{"id": "C104", "title": "A single variable name can be given as a string", "statement": "Wherever a list of variable names is expected, a single name can be given as a string and means the same as the list with this name: when factors are constructed and when the variables of a marginal are chosen.", "quantifier": "all names, all parameters", "why_tests_cant": "the outcome depends on the characters of the name", "anchors": ["veroku/factors/_factor.py:Factor.__init__", "veroku/factors/_factor.py:Factor.get_marginal_vars", "veroku/factors/gaussian.py:Gaussian.__init__"]}
{"id": "C105", "title": "Sorting an almost sorted queue", "statement": "_sort_almost_sorted returns the elements of its argument in descending order of their keys if all elements but the first, or all but the last, are in descending order.", "quantifier": "all queues, all keys", "why_tests_cant": "all queues of all lengths with ties", "anchors": ["veroku/cluster_graph.py:_sort_almost_sorted"]}
{"id": "C106", "title": "The listing of a categorical factor is complete", "statement": "dense_distribution_array lists every assignment of the variables exactly once together with the value of the factor - for dense factors in lexicographic order, for sparse factors also the assignments that its table does not mention. Dense and sparse factors with the same function have the same rows, and the listed probabilities sum up to the total mass.", "quantifier": "all dense factors, all sparse factors with any default", "why_tests_cant": "all tables, all cardinalities, all defaults", "anchors": ["veroku/factors/categorical.py:Categorical.dense_distribution_array", "veroku/factors/sparse_categorical.py:SparseCategorical.dense_distribution_array", "veroku/factors/sparse_categorical.py:_make_dense"]}
{"id": "C107", "title": "The data frame of a categorical factor identifies the assignments", "statement": "get_df(named_assignments=True) of any factor that can be constructed has one row for every assignment with the names of its values, and no two rows have the same names.", "quantifier": "all dense factors, all assignment names", "why_tests_cant": "all tables and all name lists", "anchors": ["veroku/factors/categorical.py:Categorical.get_df", "veroku/factors/categorical.py:Categorical.__init__"]}
{"id": "C108", "title": "Samples follow the normalised potential", "statement": "The samples drawn from a Gaussian or from a mixture of Gaussians are independent, and each of them has the distribution whose density is the potential of the factor divided by its weight, with one row per variable in the order of var_names. A Gaussian that has no covariance raises. A mixture chooses its components in proportion to their weights.", "quantifier": "all dimensions, all Gaussians and mixtures (any number of components) with positive definite precisions, any number of samples, all measurable test functions", "why_tests_cant": "a statement about a probability law, not about any finite set of draws", "anchors": ["veroku/factors/gaussian.py:Gaussian.sample", "veroku/factors/experimental/gaussian_mixture.py:GaussianMixture.sample", "veroku/factors/experimental/gaussian_mixture.py:GaussianMixture._get_weights"]}
{"id": "C109", "title": "Samples of non-linear Gaussians follow the joint distribution", "statement": "The samples drawn from a non-linear Gaussian with an affine transform are independent draws from the exact joint distribution given the evidence, one row per variable in the order of var_names. The samples drawn from a mixture of non-linear Gaussians are as many as asked for, one row per variable.", "quantifier": "all affine transforms, noise covariances, absorbed factors, evidence and numbers of samples; all mixtures", "why_tests_cant": "a statement about a probability law and about all histories of absorbed factors", "anchors": ["veroku/factors/experimental/nonlinear_gaussian.py:NonLinearGaussian.sample", "veroku/factors/experimental/nonlinear_gaussian.py:NonLinearGaussianMixture.sample"]}
{"id": "C110", "title": "Division of mixtures by moment matching is right for proportional divisors", "statement": "With cancel method 2, dividing a mixture by a mixture all of whose components are equal gives the quotient of the two potentials, with as many components as the numerator; the potentials of the operands do not change. If every component of the divisor can be divided out of the numerator with a normalisable result, the result of the division is normalisable.", "quantifier": "all dimensions, variable orders, numbers of components and parameters (numerator sharper than divisor), all earlier histories of the components", "why_tests_cant": "the error depends on the sign of a constant (the value of the operands at the origin), and no test can cover all parameters", "anchors": ["veroku/factors/experimental/gaussian_mixture.py:GaussianMixture.divide", "veroku/factors/experimental/gaussian_mixture.py:GaussianMixture._gm_division_m2", "veroku/factors/experimental/gaussian_mixture.py:GaussianMixture._moment_match_complex_gaussian", "veroku/factors/experimental/gaussian_mixture.py:GaussianMixture._complex_cov_form_to_real_canform", "veroku/factors/gaussian.py:Gaussian._get_complex_weight"]}
{"id": "C111", "title": "Division of mixtures by Laplace approximations is right when the quotient is a Gaussian", "statement": "With cancel method 1, if the quotient of a mixture with one component and a mixture with several components is a multiple of one Gaussian, the optimiser finds the minima and the derivatives are exact, then the result is that quotient, for any number of variables.", "quantifier": "all optimisers and derivatives with these properties, all numbers of variables, parameters and components", "why_tests_cant": "quantifies over all optimisers and parameters; the constant of the result agrees with the quotient only on a set of parameters of measure zero", "anchors": ["veroku/factors/experimental/gaussian_mixture.py:GaussianMixture.divide", "veroku/factors/experimental/gaussian_mixture.py:GaussianMixture._gm_division_m1", "veroku/factors/experimental/gaussian_mixture.py:GaussianMixture._get_inverse_gaussians", "veroku/factors/experimental/gaussian_mixture.py:GaussianMixture._argmin", "veroku/factors/_factor_utils.py:remove_duplicate_values"]}
{"id": "C112", "title": "argmax returns the best local optimum found", "statement": "The optimiser is started from the mean of each component. argmax returns the result of one of the successful runs, and none of the successful runs has a result with a greater potential; if one of them is a global maximum of the potential, so is the result. If no run ends below its start, the result is at least as good as every mean. If no run is successful an exception is raised. The potential of the mixture does not change.", "quantifier": "all optimisers (any function of objective and start), all dimensions, all mixtures with any history", "why_tests_cant": "quantifies over all optimisers and all mixtures", "anchors": ["veroku/factors/experimental/gaussian_mixture.py:GaussianMixture.argmax"]}
{"id": "C113", "title": "Non-linear Gaussians: reading the parameters and comparing", "statement": "Reading canonical parameters of a NonLinearGaussian (get_prec, get_h, get_g) returns those of its joint distribution, with rows in the order of the variables of that distribution, and so do get_cov, get_mean and get_log_weight if the joint is strictly concave; reading does not change what the factor means. equals of a NonLinearGaussian and a Gaussian answers whether its joint distribution agrees with the Gaussian within the tolerances. (Violated: equals compares a stored joint that is vacuous until a parameter is read, so a new factor is not found equal to its own joint distribution and is found equal to the vacuous Gaussian; comparing two NonLinearGaussians raises ValueError.)", "quantifier": "for all non-linear Gaussians that can be reached by construction, multiplication, division and reduction, all transforms, all Gaussians to compare with, all tolerances", "why_tests_cant": "The answers depend on a cached joint that some methods recompute and others use as it is; tests compare one factor in one state of the cache.", "anchors": ["veroku/factors/experimental/nonlinear_gaussian.py: get_prec, get_h, get_g, get_cov, get_mean, get_log_weight, equals, joint_distribution"]}
{"id": "C114", "title": "The text of a Gaussian shows the parameters of its function", "statement": "repr and show of a Gaussian return, and every set of parameters they print stands for the function the factor denotes. (Violated for repr: it raises for a factor constructed with vacuous canonical parameters, such as make_vacuous, and for any factor whose precision is singular.)", "quantifier": "for all Gaussians reachable from the API, in either form or both, vacuous or not", "why_tests_cant": "Whether printing raises depends on which forms are stored and on a cached flag; a test prints one object in one state.", "anchors": ["veroku/factors/gaussian.py: Gaussian.__repr__, Gaussian.show, _get_cov_repr_str, _get_can_repr_str"]}
{"id": "C115", "title": "Random Gaussians are products of normal densities", "statement": "Whatever numbers are drawn from a range of positive numbers, make_random_gaussian returns a factor with the given variables whose potential is the product of one-dimensional normal densities with the drawn means and with variances in the range; its weight is one and it is not vacuous. An empty list of variables or a repeated variable raises.", "quantifier": "for all lists of distinct variables and all draws from any positive range", "why_tests_cant": "The draws are random; a test sees one seed.", "anchors": ["veroku/factors/gaussian.py: make_random_gaussian"]}
{"id": "C116", "title": "Inference in linear Gaussian networks never fails", "statement": "For a network of Gaussian conditional distributions, which cannot be normalised over all of their variables, building the cluster graph returns, and after any sequence of messages, on graphs with or without cycles, passing a further message, process_graph and querying unobserved variables of one input factor all return. (Violated: a conditional distribution with two parents that are observed nowhere makes the constructor raise, and two clusters that share two variables can exchange messages whose divergence raises LinAlgError.)", "quantifier": "for all lists of Gaussian factors, evidence, special evidence, hash seeds and all executions of the message passing", "why_tests_cant": "Whether an inversion fails depends on the precision matrices that arise along a schedule; a test runs one schedule on one network.", "anchors": ["veroku/cluster_graph.py: ClusterGraph.__init__, process_graph, _pass_message, get_marginal", "veroku/_cg_helpers/_cluster.py: Cluster.make_message, receive_message", "veroku/factors/gaussian.py: Gaussian.marginalize, kl_divergence, is_vacuous"]}
{"id": "C117", "title": "Linear Gaussian networks converge on trees", "statement": "For a network of Gaussian conditional distributions whose cluster graph has no cycle and whose clusters share at most one unobserved variable, process_graph with tol >= 0 and max_iter at least the number of clusters ends with every information gain at most tol, although messages may be flat and gains infinite on the way; and after any execution a bounded number of further messages leads to a state in which no message has new content.", "quantifier": "for all such networks, evidence, hash seeds, all earlier executions, all orders of the queue", "why_tests_cant": "The number and order of messages depend on the hash seed and on infinite gains; a test checks one run.", "anchors": ["veroku/cluster_graph.py: process_graph, _pass_message", "veroku/factors/gaussian.py: Gaussian.distance_from_vacuous, kl_divergence"]}
{"id": "C118", "title": "Linear Gaussian networks: exact posterior marginals", "statement": "For a network of Gaussian conditional distributions whose posterior can be normalised, whose cluster graph has no cycle and whose clusters share at most one unobserved variable: once no message has new content, every query of unobserved variables of one input factor returns a positive multiple of the Lebesgue integral of the joint density over the other unobserved variables.", "quantifier": "for all such networks, evidence, special evidence, hash seeds and executions, all points", "why_tests_cant": "Correctness is an equality of functions on a continuum, for all parameters and schedules; tests compare a few numbers for one network.", "anchors": ["veroku/cluster_graph.py: get_marginal, process_graph", "veroku/_cg_helpers/_cluster.py: Cluster.make_message, receive_message", "veroku/factors/gaussian.py: Gaussian.marginalize, multiply, divide, reduce"]}
{"id": "C119", "title": "The text of a categorical factor is a table", "statement": "repr of a dense categorical factor is a table whose header has the names of the variables and prob and whose rows are all assignments, each once, in order, with the value of the factor; repr of a sparse factor shows the stored entries, each once, and every assignment that is not shown has the default value. Separated by tab stops every eight columns, the cells of every row stand below the cells of the header.", "quantifier": "for all well-formed factors with clean variable names (any length), all formats of the value that contain no tabs or line breaks", "why_tests_cant": "A test looks at the text of one small factor; alignment depends on the lengths of all names and indices.", "anchors": ["veroku/factors/categorical.py: Categorical.__repr__", "veroku/factors/sparse_categorical.py: SparseCategorical.__repr__", "veroku/factors/_factor_utils.py: tabs_to_cover_string, space_assignments_and_probs"]}
{"id": "C120", "title": "The convergence plot shows every distance", "statement": "plot_message_convergence draws every recorded information gain at its iteration: a finite gain with its own (log) height and not marked, an infinite one marked red and above all finite ones, with a legend exactly if there is an infinite gain.", "quantifier": "for all sequences of recorded gains, log or not", "why_tests_cant": "Existing tests do not look at what is drawn; the failures depend on the values (no finite gain, all gains zero, all gains below one on the log scale).", "anchors": ["veroku/cluster_graph.py: plot_message_convergence"]}
{"id": "C121", "title": "Plots show the function where its mass is", "statement": "plot of a Gaussian or a Gaussian mixture over one variable draws a curve through 200 equally spaced points of the graph of the potential (with log=True the log potential) over the limits given; over two variables a grid of 100 times 100 points, the first variable on the horizontal axis. Without limits, for normalisable factors, at least 8/9 (one variable) or 7/9 (two variables) of the mass lie within the limits. The factor keeps its function; for more variables NotImplementedError is raised.", "quantifier": "for all Gaussians after any history and all mixtures of such over one or two variables, all limits, log or not, with or without component curves", "why_tests_cant": "Plots are not tested at all; that the chosen window holds most of the mass is a statement about integrals for all parameters.", "anchors": ["veroku/factors/gaussian.py: Gaussian.plot, _plot_2d, _get_limits_for_2d_plot", "veroku/factors/experimental/gaussian_mixture.py: GaussianMixture.plot, _plot_2d, _get_sensible_xlim, _get_limits_for_2d_plot", "veroku/factors/_factor_utils.py: plot_2d"]}
{"id": "C122", "title": "Factors made from one template are one function of their own variables", "statement": "make_factor(format_dict) of a factor template returns a factor whose variables are the name templates with the fields filled in, in the order of the templates, and whose value at an assignment is the one the template was given (table, tensor, canonical parameters, or function and noise); two factors made from one template agree at assignments that agree variable by variable. A field without a value is a KeyError, coinciding names are a ValueError, names given as well as a dictionary are an AssertionError.", "quantifier": "for all templates of literal text and plainly named fields, all dictionaries, all tables, tensors and parameters", "why_tests_cant": "The tests make one or two factors per template class; the claim is about every template, dictionary and table, and about the value at every assignment.", "anchors": ["veroku/factors/categorical.py: CategoricalTemplate.make_factor", "veroku/factors/sparse_categorical.py: SparseCategoricalTemplate.make_factor, _fast_copy_probs_table", "veroku/factors/gaussian.py: GaussianTemplate.make_factor", "veroku/factors/experimental/nonlinear_gaussian.py: NonLinearGaussianTemplate.make_factor"]}
{"id": "C123", "title": "A small divergence means close factors", "statement": "If kl_divergence of two factors over the same variables returns d, the normalised factors differ by at most sqrt(2 d), in sum (integral) over all assignments and so at every assignment. is_vacuous (with its threshold of 1e-10) returns True for every constant categorical factor, and if it returns True no probability of the normalised factor is more than 2e-5 away from the uniform one. When process_graph stops before its budget of messages, no message that could be sent next differs by more than sqrt(2 tol) from the one last sent on its path (from the uniform one if none was).", "quantifier": "for all pairs of well formed factors of positive mass over the same variables, all graphs of sparse factors with a possible posterior, all tolerances and all executions", "why_tests_cant": "The tests compare divergences of single pairs of factors with stored numbers; the bound concerns all pairs and all stopping points of message passing.", "anchors": ["veroku/factors/_factor.py: Factor.is_vacuous", "veroku/factors/categorical.py: Categorical.kl_divergence, distance_from_vacuous", "veroku/factors/sparse_categorical.py: SparseCategorical.kl_divergence, distance_from_vacuous", "veroku/factors/gaussian.py: Gaussian.kl_divergence", "veroku/cluster_graph.py: ClusterGraph.process_graph"]}
{"id": "C124", "title": "Cluster graphs with non-linear Gaussian factors", "statement": "In a tree shaped cluster graph of Gaussian and NonLinearGaussian factors with affine transforms, after message passing has converged, get_marginal of unobserved variables returns a positive multiple of the integral of the product of all factors (with the special evidence substituted) over all other unobserved variables.", "quantifier": "for all lists of Gaussian and non-linear Gaussian factors with affine transforms, all special evidence, all executions of message passing that reach convergence, all sets of queried variables", "why_tests_cant": "The tests run one graph with a non-linear factor; whether a factor or an observation gets lost depends on the scopes of all factors, the order of messages and what is known about the conditioning variables at the time.", "anchors": ["veroku/cluster_graph.py: ClusterGraph.__init__, get_marginal, process_graph, _absorb_subset_factors", "veroku/factors/experimental/nonlinear_gaussian.py: NonLinearGaussian.multiply, divide, reduce, marginalize", "veroku/factors/gaussian.py: Gaussian.multiply"]}
{"id": "C125", "title": "Cluster graphs with Gaussian mixture factors", "statement": "A cluster graph can be built from any Gaussian and GaussianMixture factors. If its edges form no cycle and message passing has converged, get_marginal of unobserved variables returns a positive multiple of the integral of the product of all factors (with the evidence substituted) over all other unobserved variables.", "quantifier": "for all lists of Gaussian and Gaussian mixture factors, all evidence, all executions of message passing that reach convergence, all sets of queried variables", "why_tests_cant": "No test builds a graph from mixtures; which combinations of scopes can be built at all, and what a query then returns, depends on all factors together.", "anchors": ["veroku/cluster_graph.py: ClusterGraph.__init__, get_marginal, process_graph, _absorb_subset_factors, _GraphMessagePath", "veroku/factors/gaussian_mixture.py: GaussianMixture.multiply, cancel, divide, reduce, marginalize, distance_from_vacuous, kl_divergence", "veroku/factors/gaussian.py: Gaussian.multiply"]}
{"id": "C126", "title": "Inference on graphs with cycles never rules out a solution", "statement": "Let a cluster graph be built from sparse categorical factors, with or without cycles, whose assignments may use any values (for instance 1..9 for a variable with nine values). If some assignment is allowed by all factors and all evidence, then the graph can be built, process_graph returns (unless the graph has one cluster and special evidence), and get_marginal is non-zero at every assignment that all factors and all evidence allow. Hence, if the marginal of a variable is left with one non-zero value, argmax returns it and it is the value of that variable in every solution.", "quantifier": "for all lists of sparse factors with consistent cardinalities and at most that many values per variable, all evidence, all tolerances and iteration limits, all queried variables, all solutions", "why_tests_cant": "Belief propagation on graphs with cycles is not exact and need not converge; that no sequence of messages ever removes a solution is a statement about all schedules and all tables, of which the sudoku example runs one.", "anchors": ["veroku/cluster_graph.py: ClusterGraph.__init__, process_graph, get_marginal", "veroku/factors/sparse_categorical.py: SparseCategorical.multiply, cancel, marginalize, reduce, distance_from_vacuous, kl_divergence, argmax", "examples/sudoku.ipynb: SudokuBoard.compute_solution"]}
{"id": "C127", "title": "The operators of factors mean the methods of the same name", "statement": "f * g is the pointwise product of f and g; f / g is the quotient that divide returns; f == g answers for any two factors, false if they are of different classes, with the same answer in either order; f != g is its negation.", "quantifier": "for all pairs of factors", "why_tests_cant": "Whether an operator reaches the intended method depends on Python's lookup for every class, and answers for all pairs of classes are not enumerated by tests.", "anchors": ["veroku/factors/_factor.py: __mul__, __div__, __eq__, __ne__", "veroku/factors/sparse_categorical.py: equals", "veroku/factors/categorical.py: equals", "veroku/factors/gaussian.py: equals", "veroku/factors/experimental/gaussian_mixture.py: equals", "veroku/factors/experimental/factorised_factor.py: equals"]}
{"id": "C128", "title": "Comparing and copying messages", "statement": "Two messages of sparse factors compare equal only if sender, receiver and scope are the same and the factors agree within tolerance everywhere; the comparison is symmetric and never raises. A copy of a message is equal to it, has divergence 0 from it and the same distance from vacuous.", "quantifier": "for all messages with well-formed sparse factors, all tolerances", "why_tests_cant": "The comparison combines scopes in different orders and implicit zero entries; tests compare a few pairs.", "anchors": ["veroku/_cg_helpers/_cluster.py: Message.equals, copy, kl_divergence, distance_from_vacuous"]}
{"id": "C129", "title": "The plotted information gains", "statement": "plot_next_messages_info_gain draws one curve per message path, labelled with its sender and receiver. The value of a curve at iteration k is the information gain of the next message along that path after k messages have been passed; the first value is the distance from vacuous, the last the current gain.", "quantifier": "for all classes of factors, all graphs that can be built, all orders of passing messages", "why_tests_cant": "The tests mock the plotting library and look only at the legend; which values are recorded depends on the whole history of messages.", "anchors": ["veroku/cluster_graph.py: plot_next_messages_info_gain, _GraphMessagePath.update_next_information_gain, pass_next_message, recompute_next_message"]}
{"id": "C130", "title": "The chosen method of dividing mixtures is kept", "statement": "A GaussianMixture made with a cancel_method, and every mixture computed from it (copy, multiply, divide, reduce, marginalize, normalize), divides by a mixture of several components with that method.", "quantifier": "all mixtures, cancel methods, operations and operands", "why_tests_cant": "a test sees one operation on one mixture; the choice must survive every chain of operations", "anchors": ["veroku/factors/experimental/gaussian_mixture.py:GaussianMixture.__init__", "veroku/factors/experimental/gaussian_mixture.py:GaussianMixture.multiply", "veroku/factors/experimental/gaussian_mixture.py:GaussianMixture.divide", "veroku/factors/experimental/gaussian_mixture.py:GaussianMixture.reduce", "veroku/factors/experimental/gaussian_mixture.py:GaussianMixture.marginalize", "veroku/factors/experimental/gaussian_mixture.py:GaussianMixture.normalize"]}
{"id": "C131", "title": "Evidence about variables that no factor mentions has no effect", "statement": "Adding to the evidence or to the special evidence of a ClusterGraph values for variables that no factor mentions changes nothing: building the graph, process_graph and get_marginal return the same marginal, or raise the same exception.", "quantifier": "all lists of factors, all pairs of evidence and special evidence that agree on the variables of the factors, all tolerances, iteration limits and queries", "why_tests_cant": "a test adds one irrelevant variable to one model; evidence dictionaries are often shared between models, and the irrelevant entries must be harmless in every graph shape", "anchors": ["veroku/cluster_graph.py:ClusterGraph.__init__", "veroku/cluster_graph.py:ClusterGraph.process_graph", "veroku/cluster_graph.py:ClusterGraph.get_marginal", "veroku/_cg_helpers/_cluster.py:Cluster.__init__", "veroku/factors/_factor_utils.py:get_subset_evidence"]}
{"id": "C132", "title": "Equality of sparse factors respects user-chosen defaults", "statement": "SparseCategorical.equals says yes exactly if the two factors have the same log value, within the tolerances, at every assignment, also when the factors have default values other than -inf and whichever order the variables are listed in.", "quantifier": "all pairs of sparse factors over the same variables, all defaults, all non-negative tolerances", "why_tests_cant": "equality is what the unit tests themselves use to compare results; a wrong yes hides errors, and whether a default is compared depends on which assignments are stored in either table", "anchors": ["veroku/factors/sparse_categorical.py:SparseCategorical.equals", "veroku/factors/sparse_categorical.py:SparseCategorical._all_non_default_equal", "veroku/factors/sparse_categorical.py:SparseCategorical._is_dense", "veroku/factors/sparse_categorical.py:SparseCategorical.reorder"]}
{"id": "C133", "title": "The covariance check of a Gaussian is right", "statement": "Gaussian._cov_exists says yes exactly if the Gaussian has covariance parameters: if it says no they cannot be read, if it says yes get_cov, get_mean and get_log_weight give numbers.", "quantifier": "all Gaussians of any dimension, in canonical or covariance form", "why_tests_cant": "tests try a zero and a regular precision; the answer must be right for every singular or indefinite matrix that division can produce", "anchors": ["veroku/factors/gaussian.py:Gaussian._cov_exists", "veroku/factors/gaussian.py:Gaussian.get_cov", "veroku/factors/gaussian.py:Gaussian._update_covform"]}
{"id": "C134", "title": "Vacuity of mixtures and factorised factors", "statement": "is_vacuous of a GaussianMixture or of a FactorizedFactor answers yes exactly if the potential is constant.", "quantifier": "all mixtures and all factorised factors with any number of Gaussians, after any history, whose Gaussians are each constant and flagged so or strictly concave and not flagged", "why_tests_cant": "tests look at a few flags; that no sum or product of Gaussians with the given flags is constant by accident is a statement about all parameters", "anchors": ["veroku/factors/experimental/gaussian_mixture.py:GaussianMixture.is_vacuous", "veroku/factors/experimental/factorised_factor.py:FactorizedFactor.is_vacuous"]}
{"id": "C135", "title": "Weight and normalisation of sparse factors with any default", "statement": "weight of a SparseCategorical is the sum of the potential over all assignments, and the potentials of normalize sum to one, also if the factor was built with a default other than -inf.", "quantifier": "all sparse factors with at least one entry, any default value, any number of variables", "why_tests_cant": "tests use the default -inf or store every assignment; the total depends on how many assignments have no entry", "anchors": ["veroku/factors/sparse_categorical.py:SparseCategorical.weight", "veroku/factors/sparse_categorical.py:SparseCategorical.normalize"]}
