C01 proved Verif.Sparse: C01_multiply_pointwise C01_multiply_prob C01_multiply_inconsistent | zero-default factors; inconsistent cardinalities raise AssertionError
C02 proved Verif.Sparse: C02_marginalize_sums | zero-default factors, both keep modes, every requested order, every hash order
C03 proved Verif.Sparse: C03_reduce_restricts | restriction, and KeyError exactly when no entry is compatible
C04 proved Verif.Sparse: C04_divide_pointwise C04_divide_default_mismatch | any common default
C05 proved Verif.Sparse: C05_cancel_pointwise C05_cancel_empty C05_cancel_supported C05_absorb_cancel | the empty divisor table is the one case where x/0 gives 0 instead of +inf (C05_cancel_empty)
C06 proved Verif.Sparse: C06_reorder_preserves | zero-default factors (a non-zero default is lost: C13)
C07 partial Verif.Sparse: C07_potential_partial C07_potential_wrong_order | claim is false for orders that are not self-inverse permutations (witness C07_potential_wrong_order); proved for self-inverse orders
C08 proved Verif.Sparse: C08_argmax_maximises | also: first maximiser among listed entries, ValueError for an empty table
C09 proved Verif.Sparse: C09_normalize C09_weight C09_normalize_empty | positive mass; empty table raises ValueError
C10 proved Verif.Sparse: C10_equals_symm C10_equals_sound C10_equals_reorder | zero-default factors
C11 proved Verif.Sparse: C11_kl_divergence C11_distance_from_vacuous | exact value, non-negative, zero only for equal distributions; +inf without support; the error branch is unreachable
C12 proved Verif.Sparse: C12_hash_any C12_hash_divide C12_hash_marginalize | for every iteration order of Python sets
C13 partial Verif.Sparse: C13_multiply_partial C13_multiply_loses_entries C13_reorder_reduce_lose_default | claim is false (two witnesses); the part that holds for multiply is proved, divide satisfies it (C04)
C14 proved Verif.Cat: C14_table C14_table_nonneg C14_table_range | constructor from a probability table
C15 proved Verif.Cat: C15_multiply_pointwise C15_multiply_prob C15_multiply_errors | all variable orders and overlaps
C16 proved Verif.Cat: C16_divide_pointwise C16_divide_inverts C16_divide_foreign | all divisors with contained scope
C17 partial Verif.Cat: C17_cancel_partial C17_cancel_suffix C17_cancel_raises_index C17_cancel_raises_value C17_cancel_misaligned | claim is false for divisors over a strict subset that is not aligned (witnesses); proved for operands with equal variables in equal order, and characterised (IndexError exactly on 0/0) for divisors over a suffix of the scope
C18 partial Verif.Cat: C18_marginalize_partial C18_marginalize_wrong_order C18_marginalize_hash_dependent C18_marginalize_card_one | claim is false when the requested order differs from the stored order (witnesses); or a kept variable has one value; proved for the stored order without one-valued kept variables
C19 proved Verif.Cat: C19_reduce_restricts C19_reduce_nat C19_reduce_range | evidence in any order, negative indices, range errors
C20 proved Verif.Cat: C20_reorder_preserves | all permutations
C21 proved Verif.Cat: C21_potential | potential of a full assignment in any order
C22 proved Verif.Cat: C22_argmax_first | first maximiser in lexicographic order
C23 proved Verif.Cat: C23_normalize | positive total mass
C24 proved Verif.Cat: C24_kl_divergence C24_distance_from_vacuous | exact value for any two variable orders, non-negative, zero only for equal distributions, +inf without support; distance from vacuous = log N - entropy
C25 partial Verif.Cat: C25_equals_partial C25_equals_reorder C25_equals_not_symmetric C25_equals_broadcasts | symmetry is false for every relative tolerance in (0,1); soundness fails for different cardinalities (broadcasting witness); the rest is proved
C26 partial Verif.Cat: C26_multiply C26_divide C26_reorder C26_reduce_partial C26_normalize C26_reduce_raises | agreement proved for all five operations except that sparse reduce raises KeyError on zero-probability evidence (witness)
C27 proved Verif.Cat: C27_names_kept C27_names_multiply C27_names_inconsistent | for every successful result, whatever the arguments
C42 proved Verif.CG: C42_ids_unique C42_no_id_error | any factor class, any variable names
C43 proved Verif.CG: C43_absorb_partitions C43_absorb_product | any factor class obeying the stated laws (pointwise product)
C44 proved Verif.CG: C44_evidence | any lawful factor class
C45 proved Verif.CG: C45_running_intersection | any factor class; networkx spanning tree modelled as Kruskal
C46 proved Verif.CG: C46_sepsets | any factor class
C47 proved Verif.CG: C47_budget C47_single C47_total | any factor class
C48 proved Verif.CG: C48_early_stop | any factor class, linearly ordered gains
C49 proved Verif.CG: C49_greedy C49_gain_fresh | any factor class
C50 proved Verif.CG: C50_belief C50_zeros_stay | any lawful factor class, any schedule
C51 partial Verif.CG: C51_joint_partial C51_unavailable | invariance proved once every path has sent a message, at evidence-consistent assignments; before that get_posterior_joint raises (proved)
C52 proved Verif.CG: C52_exact_marginals C52_sparse C52_sparse_process C52_single_cluster C52_tree_inference | any lawful discrete factor class, any schedule; edges without a cycle; instance and total correctness for SparseCategorical
C53 proved Verif.CG: C53_get_marginal | any factor class
C54 partial Verif.CG: C54_process_again_partial C54_single_cluster_violation | sparse factors, two or more clusters; false for one cluster with special evidence (proved)
C55 proved Verif.CG: C55_reject C55_accept C55_delivery | any factor class
C78 proved Verif.CG: C78_inference_never_fails | sparse categorical factors with default -inf
C79 proved Verif.CG: C79_tree_converges C79_positive_tree_converges | sparse categorical factors; exact real arithmetic
C28 proved Verif.Gauss: C28_forms | real arithmetic
C29 proved Verif.Gauss: C29_weight C29_not_vacuous | Lebesgue integral in n dimensions; objects not flagged as vacuous
C30 proved Verif.Gauss: C30_multiply | any history of calls
C31 proved Verif.Gauss: C31_divide C31_multiply_divide | any history of calls
C32 partial Verif.Gauss: C32_marginalize_partial C32_posDef C32_flagged | proved for objects not flagged as vacuous with positive definite marginalised block; false for flagged objects (proved)
C33 partial Verif.Gauss: C33_reduce_partial C33_all_observed | proved while a variable is left unobserved; with all variables observed reduce raises (proved)
C34 partial Verif.Gauss: C34_reorder_partial C34_repeated_name | lists with repeated names are accepted (proved)
C35 proved Verif.Gauss: C35_normalize | positive definite precision
C36 partial Verif.Gauss: C36_kl_partial C36_order | proved for operands in the same order, exact unless equals with its tolerance answers yes; false for different orders (proved)
C37 partial Verif.Gauss: C37_equals_partial C37_reorders | functions by name are kept; the order of the argument's variables may change (proved)
C38 proved Verif.Gauss: C38_forms_agree C38_accessors C38_copy_weight | any history of calls
C39 partial Verif.Gauss: C39_vacuous_partial C39_not_constant C39_constant_lost | see the violations proved beside it
C40 partial Verif.Gauss: C40_linear_partial C40_not_square | square matrices; others raise (proved)
C41 partial Verif.Gauss: C41_template_partial C41_template_marginal C41_linear_template | the produced factor is always flagged as vacuous (violation proved)
C62 partial Verif.Gauss: C62_split_partial C62_weight | mean and variance; the weight becomes one (violation proved)
C73 proved Verif.Gauss: C73_matrix C73_vector C73_shape | all matrices and label lists
C80 proved Verif.Gauss: C80_equals | any history of calls
C56 proved Verif.Mix: C56_multiply C56_multiply_gaussian make_isMix | mixtures of components from any history
C57 partial Verif.Mix: C57_reduce_partial C57_marginalize_partial C57_all_observed | observing every variable raises (proved); components flagged vacuous are excluded from marginals
C58 proved Verif.Mix: C58_weight C58_normalize | components with positive definite precisions, for which the weight exists
C59 proved Verif.Mix: C59_moment_match | components with positive definite precisions, for which the moments exist
C60 partial Verif.Mix: C60_equals_partial C60_order C60_asymmetric | what the comparison does is proved; order dependence and asymmetry are violations (proved)
C61 proved Verif.Mix: C61_divide_gaussian C61_divide_single C61_multiply_divide C61_divide_matched | also division by a mixture with cancel method 0; for methods 1 and 2 see C110 and C111
C81 partial Verif.Mix: C81_equals_partial C81_equals_changes_argument | same variable order; for another order the argument changes (violation proved)
C82 partial Verif.Mix: C82_copy_partial C82_copy_cancel_method | the cancel method is lost (violation proved)
C83 proved Verif.Mix: C83_from_sklearn | positive weights
C63 partial Verif.Fact: C63_joint C63_multiply_partial C63_new_variable | joint and product proved; var_names is stale for new variables (violation proved)
C64 partial Verif.Fact: C64_divide_partial C64_not_exact | a factor found equal to the divisor is deleted although the functions may differ (violation proved)
C65 partial Verif.Fact: C65_marginalize_partial C65_proper C65_one_variable C65_raises C65_chain C65_unlisted | proved when sharing dropped variables is transitive between factors; a chain of three factors gives a wrong weight and unlisted variables are never dropped (violations proved)
C66 partial Verif.Fact: C66_reduce_partial C66_raises | evidence that covers a factor and more raises (violation proved for all such inputs)
C67 partial Verif.Fact: C67_equals_partial C67_answers C67_gaussian C67_repeated_scope | pairwise distinct scopes; with repeated scopes neither sound nor reflexive (violation proved)
C68 partial Verif.Fact: C68_normalize_partial C68_raises | one factor; two or more always raise (violation proved)
C69 proved Verif.Sigma: C69_sigma_points C69_raises C69_unique C69_list | exact arithmetic; numpy's Cholesky factor by its defining equation (proved to exist exactly for positive definite matrices and to be unique)
C70 proved Verif.Sigma: C70_affine C70_untransformed | exact arithmetic
C71 partial Verif.NLG: C71_multiply C71_divide C71_undo_conditional C71_undo_conditioning_partial C71_joint C71_vacuous C71_undo_raises | violated: flagged vacuous factors are dropped whatever their scope; dividing out the whole conditioning factor raises Exception
C72 partial Verif.NLG: C72_vacuous C72_computed_partial C72_all_observed C72_factor_observed | violated when all conditioning variables are observed: UnboundLocalError or AssertionError
C84 proved Verif.NLG: C84_affine | exact joint for affine transforms
C85 proved Verif.NLG: C85_reduce | evidence given in stages
C86 partial Verif.NLG: C86_marginalize C86_update_marginal C86_drop_raises C86_ignores_evidence | violated: dropping variables after an observation raises ValueError; while the joint is vacuous evidence and weight are ignored
C74 partial Verif.Utils: C74_remove_duplicate_values_partial C74_exact C74_empty C74_negative | violated by the empty list (IndexError) and negative tolerances
C75 proved Verif.Utils: C75_subset_evidence | any lists, also with repeated variables
C76 proved Verif.Fmt: C76_formattable C76_formattable_conditional C76_format C76_plain C76_raises C76_no_templates C76_constructor | str.format modelled; fields that are not plain names are an arbitrary parameter
C77 partial Verif.Anim: C77_sepset_symmetric C77_sepset_injective_partial C77_sepset_clash C77_sound_partial C77_joined C77_super_missing C77_incomplete | symmetric name proved; the substring check is violated by concrete strings
C87 proved Verif.CG: C87_gaussian_exact C87_gaussian_tree_inference | Gaussian factors; exact real arithmetic; convergence is exact proportionality (gain zero also allows messages that equals finds equal within 1e-4)
C88 proved Verif.CG: C88_gaussian_never_fails | factors with a finite integral, each with an unobserved variable
C89 proved Verif.CG: C89_gaussian_tree_converges C89_gaussian_exact_convergence | factors with a finite integral; exact real arithmetic
C90 partial Verif.NlgMix: C90_multiply_partial C90_scope C90_split_partial C90_violated C90_gaussian_raises | violated when a single component over one variable is split: its weight is lost; multiplying by a Gaussian always raises TypeError in the model (by definition)
C91 partial Verif.NlgMix: C91_joint_partial C91_order | violated: components whose joints come in different variable orders raise ValueError
C92 proved Verif.NlgMix: C92_reduce | components with the same conditional, conditioning factor and observed variables
C93 partial Verif.NlgMix: C93_joint_marginal_partial C93_never_returns C93_type_error | violated: marginalize never returns; the marginal can be had from the joint distribution
C94 proved Verif.NlgMix: C94_divide_gaussian C94_divide_mixture C94_divide_returns | exact real arithmetic
C95 partial Verif.NlgMix: C95_copy_partial C95_flag C95_violated | violated: the flag split_singles_before_absorb is lost, so products of a copy differ
C96 proved Verif.NLG: C96_weight | any transform that returns a column for every point
C97 partial Verif.CG: C97_dense_exact_partial C97_dense_tree_inference_partial C97_joint_query_wrong C97_hash_dependent | proved for factors any two of which have at most one unobserved variable in common and queries for one variable (zeros allowed if the run returned); false for queries in another order than stored and for sepsets of two variables (witnesses); exact real arithmetic
C98 partial Verif.CG: C98_dense_never_fails_partial C98_dense_step C98_zero_raises | proved for factors without zeros, any two with at most one unobserved variable in common; with zeros it is characterised exactly when passing a message raises IndexError, with a witness
C99 partial Verif.CG: C99_dense_tree_converges_partial | factors without zeros, any two with at most one unobserved variable in common; exact real arithmetic
C100 partial Verif.CG: C100_not_nested_partial C100_chain C100_equal | proved when no three factors have nested scopes, for strict containment; three nested scopes and equal scopes violate it (witnesses)
C101 proved Verif.CG: C101_sparse_consistent C101_gaussian_consistent | sparse factors: all gains at most 0; Gaussian factors: every next message is a multiple of the last one
C102 proved Verif.CG: C102_posterior C102_order_independent C102_gaussian_posterior C102_gaussian_order_independent | sparse factors: all gains at most 0; Gaussian factors: every next message is a multiple of the last one; graphs without cycles
C103 partial Verif.Conv: C103_matrix C103_matrix_sound C103_vector C103_scalar C103_gaussian_cov_partial C103_gaussian_can_partial C103_gaussian_sound C103_vector_violated C103_scalar_violated C103_error_violated | proved for matrices and for the documented forms of vectors and numbers; lists of lists are taken as vectors and arrays of shape (1, n) as numbers (witnesses)
C104 partial Verif.Conv: C104_single_name_partial C104_single_name_violated C104_single_name_witness | holds for marginals and for names of one character; longer names are taken as sequences of characters by the constructor
C105 partial Verif.CG: C105_sort_almost_sorted_partial C105_short C105_needs_condition | proved for at least two elements; shorter queues raise IndexError
C106 proved Verif: C106_dense C106_sparse C106_agree C106_sum | rows as lists; conversion to numpy arrays not modelled
C107 partial Verif: C107_named_rows_partial C107_names_violated | proved when the names of each variable are distinct; the constructor only counts different names
C108 proved Verif.Sampling: C108_gaussian C108_raises C108_mixture C108_none | the random numbers are parameters with the laws numpy documents; a mixture asked for no samples raises ValueError
C109 partial Verif.Sampling: C109_nonlinear_partial C109_mixture_violated C109_mixture_rows C109_order | the law is exact for a single non-linear Gaussian, with rows in the order of its joint instead of var_names; a mixture of k factors returns k times the rows
C110 partial Verif.Mix: C110_equal_components_partial C110_formula C110_equal_components_violated C110_witness C110_not_normalisable | the constant of the fitted Gaussian loses its sign, so the quotient is exact only if no component of the numerator exceeds the divisor at the origin; with different components the result can be exp(x^2/6)
C111 partial Verif.Mix: C111_shape_partial C111_scale_violated C111_raises C111_unique_modes | one variable: the result is proportional to the quotient with the wrong constant; two or more variables: always raises because the modes are compared as arrays
C112 proved Verif.Mix: C112_best C112_global C112_means C112_fails | the optimiser is a parameter
C113 partial Verif.NLG: C113_parameters C113_equals_partial C113_fresh C113_equals_violated C113_nonlinear | the parameters are those of the joint distribution for every transform; equals is right once a parameter has been read, and wrong before
C114 partial Verif.Gauss: C114_repr_partial C114_show C114_vacuous C114_no_covariance | repr holds for strictly concave factors; it raises for constructed vacuous factors and for singular precisions. show holds for all.
C115 proved Verif.Gauss: C115_random C115_errors | The draws are inputs of the model; only their range is assumed.
C116 partial Verif.CG: C116_linear_gaussian_never_fails_partial C116_two_parents_raise C116_kl_raises C116_messages_raise | holds if every factor, given the evidence, can be integrated over all but any one of its unobserved variables and clusters share at most one unobserved variable; outside these conditions the constructor or the divergence of two messages raises (witnesses)
C117 proved Verif.CG: C117_linear_gaussian_converges C117_exact_convergence | same local hypotheses on the factors as C116
C118 proved Verif.CG: C118_linear_gaussian_exact | same local hypotheses on the factors as C116; the joint posterior is integrable
C119 partial Verif: C119_dense_partial C119_sparse_partial C119_rows_differ C119_long_index_violated C119_no_variables_violated | The cells are aligned if indices have at most seven digits and there is at least one variable; outside this they are not (witnesses). The format of the value is a parameter without tabs and line breaks.
C120 partial Verif.Plot: C120_convergence_partial C120_no_finite C120_zero_violated C120_log_violated | Holds if some gain is finite and the largest finite height is positive; otherwise it raises or draws infinite gains at or below finite ones (witnesses).
C121 partial Verif.Plot: C121_gaussian_line C121_gaussian_surface_partial C121_mixture_line_partial C121_mixture_surface_partial C121_mixture_log C121_mixture_log_violated C121_vacuous_violated C121_one_limit_ignored C121_other_dimensions | Violated: with log=True the curve of a mixture over one variable is the sum of the component log potentials; a vacuous Gaussian over two variables cannot be plotted even with limits; one limit alone is ignored by mixtures over two variables.
C122 partial Verif.Fmt: C122_categorical_table C122_categorical_tensor C122_sparse C122_gaussian_partial C122_nonlinear C122_instances C122_clash C122_clash_nonlinear C122_missing C122_given C122_nothing C122_conditional_ignored | Violated: NonLinearGaussianTemplate drops conditional_vars given together with a dictionary instead of refusing them (C122_conditional_ignored); factors from GaussianTemplate have the right function but are marked vacuous (C41).
C123 partial Verif: Cat.C123_dense Cat.C123_dense_vacuous Sparse.C123_sparse Sparse.C123_sparse_vacuous CG.C123_messages CG.C123_process CG.C123_dense_messages Gauss.C123_gauss_partial Gauss.C123_gauss_violated | Pinsker's inequality for the computed divergence. Missing: Gaussians whose parameters agree up to 1/10000 get divergence zero although they differ (as in C36), and message passing for Gaussians. Message passing for dense factors under the conditions of C97 (C123_dense_messages).
C124 partial Verif.CG: C124_exact_partial C124_swallowed C124_swallowed_witness C124_inputs_observed C124_flat C124_flat_witness | Holds if no Gaussian has a scope strictly containing that of a non-linear Gaussian, no flat factor or message carries a weight other than one, and each non-linear cluster knows something about all its conditioning variables. Violated otherwise: a Gaussian with a larger scope silently swallows a non-linear Gaussian (C124_swallowed); observing all inputs makes every query raise (C124_inputs_observed); observing only the outputs gives a flat marginal over the inputs (C124_flat).
C125 partial Verif.CG: C125_exact_partial C125_alone C125_overlap C125_mixture_and_gaussian C125_violated_overlap C125_violated_overlap_witness C125_violated_inside C125_violated_inside_witness | Marginals are exact in every graph that can be built (C125_exact_partial), for instance from a mixture and a Gaussian inside its scope (C125_mixture_and_gaussian). Violated: a mixture can send no message, so a mixture that shares an unobserved variable with a factor can be in a graph with it only if one of the factors covers both (C125_overlap, C125_violated_overlap), and not at all if its scope is strictly inside that of a Gaussian (C125_violated_inside).
C126 proved Verif.CG: C126_support C126_sparse C126_solved C126_dense_partial Verif.Sparse: C126_cardinality_needed | For any lawful class of factors and any order of messages (C126_support); for sparse factors with arbitrary assignment values, that building, process_graph and get_marginal return and keep all solutions (C126_sparse); and that reading off a determined variable with argmax gives the solution (C126_solved). For dense factors single variables, under the conditions of C97 (C126_dense_partial). Factors must not have more values than their cardinality (C126_cardinality_needed). Real arithmetic: underflow of a positive potential to zero is outside the model.
C127 partial Verif.Opr: C127_mul_sparse C127_mul_dense C127_mul_gauss C127_mul_mix C127_mul_fact C127_ne C127_division_violated C127_division_witness C127_foreign_violated C127_asymmetric | f * g is the product (C127_mul_sparse, C127_mul_dense, C127_mul_gauss, C127_mul_mix, C127_mul_fact) and f != g negates f == g (C127_ne). Violated: Factor defines __div__, which Python 3 never calls, so f / g raises TypeError (C127_division_violated, C127_division_witness); comparing factors of different classes raises instead of answering false (C127_foreign_violated), and only in one order for factorised factors (C127_asymmetric). Missing: non-linear Gaussians.
C128 proved Verif.Opr: C128_equals C128_copy | Messages of sparse factors with default -inf. The identity of the objects (uuid) is not modelled.
C129 partial Verif.CG: C129_curves C129_two_clusters C129_axis_violated C129_axis_witness | One curve per path with the right label; each curve lists the values its gain took, from the distance from vacuous of the first message to the current gain, with one entry for each message sent along the path or received by its sender (C129_curves). The abscissa is the iteration in graphs of two clusters (C129_two_clusters). Violated in larger graphs: a message elsewhere adds no point, so later values are drawn at the wrong iteration (C129_axis_violated, C129_axis_witness).
C130 partial Verif.Mix: C130_constructor_partial C130_operands_partial C130_violated C130_witness | The constructor keeps the method and the operands of an operation keep theirs. Violated: every mixture computed from another has method 0 and divides by moment matching (C130_violated, C130_witness).
C131 partial Verif.CG: C131_sparse_partial C131_dense_partial C131_gaussian_partial C131_sparse_single_raises C131_gaussian_single_raises C131_violated | Equal answers, exceptions included, for sparse, dense and Gaussian factors without any condition on the factors, whenever the graph does not have exactly one cluster or the special evidence is the same. Violated for graphs of one cluster: process_graph passes all the special evidence to reduce, so an irrelevant entry raises for sparse (C131_sparse_single_raises, C131_violated) and Gaussian factors (C131_gaussian_single_raises). Missing: dense graphs of one cluster, where reduce ignores unknown names.
C132 partial Verif.Sparse: C132_sound_partial C132_complete_partial C132_order_unsound C132_order_asymmetric C132_default_violated | Soundness for every pair of factors with the same order of variables and any defaults; completeness for exactly equal values if in addition the defaults agree or one factor stores every assignment. Violated: with different orders a factor with an impossible assignment equals a constant one (C132_order_unsound, reorder drops the default), the answer depends on which factor is asked (C132_order_asymmetric), and equal functions with different defaults are declared different (C132_default_violated).
C133 partial Verif.Gauss: C133_cov_exists C133_necessary C133_sufficient_partial C133_indefinite | Real arithmetic. The check decides whether the precision has an inverse; it says yes whenever the parameters can be read; for positive semidefinite precisions a yes means they can. Violated for indefinite precisions: yes, but the log weight is NaN (C133_indefinite).
C134 partial Verif: Mix.C134_mixture_partial Fact.C134_factorised_partial Fact.C134_mixed_raises | Proved for Gaussians with right flags (the flag itself is C39). Violated: a factorised factor with constant and other factors raises NotImplementedError instead of answering no (C134_mixed_raises).
C135 partial Verif.Sparse: C135_weight_gap C135_weight_partial C135_normalize_partial | Exact totals: weight lacks the default of each assignment without an entry, and normalize leaves these unscaled. So both are right exactly if the default is -inf or every assignment has an entry, and violated otherwise (C135_weight_gap).
