{
 "claims": [
  {
   "property": "C01",
   "status": "proved",
   "theorems": [
    "Verif.Sparse.C01_multiply_pointwise",
    "Verif.Sparse.C01_multiply_prob",
    "Verif.Sparse.C01_multiply_inconsistent"
   ],
   "note": "zero-default factors; inconsistent cardinalities raise AssertionError"
  },
  {
   "property": "C02",
   "status": "proved",
   "theorems": [
    "Verif.Sparse.C02_marginalize_sums"
   ],
   "note": "zero-default factors, both keep modes, every requested order, every hash order"
  },
  {
   "property": "C03",
   "status": "proved",
   "theorems": [
    "Verif.Sparse.C03_reduce_restricts"
   ],
   "note": "restriction, and KeyError exactly when no entry is compatible"
  },
  {
   "property": "C04",
   "status": "proved",
   "theorems": [
    "Verif.Sparse.C04_divide_pointwise",
    "Verif.Sparse.C04_divide_default_mismatch"
   ],
   "note": "any common default"
  },
  {
   "property": "C05",
   "status": "proved",
   "theorems": [
    "Verif.Sparse.C05_cancel_pointwise",
    "Verif.Sparse.C05_cancel_empty",
    "Verif.Sparse.C05_cancel_supported",
    "Verif.Sparse.C05_absorb_cancel"
   ],
   "note": "the empty divisor table is the one case where x/0 gives 0 instead of +inf (C05_cancel_empty)"
  },
  {
   "property": "C06",
   "status": "proved",
   "theorems": [
    "Verif.Sparse.C06_reorder_preserves"
   ],
   "note": "zero-default factors (a non-zero default is lost: C13)"
  },
  {
   "property": "C07",
   "status": "partial",
   "theorems": [
    "Verif.Sparse.C07_potential_partial",
    "Verif.Sparse.C07_potential_wrong_order"
   ],
   "note": "claim is false for orders that are not self-inverse permutations (witness C07_potential_wrong_order); proved for self-inverse orders"
  },
  {
   "property": "C08",
   "status": "proved",
   "theorems": [
    "Verif.Sparse.C08_argmax_maximises"
   ],
   "note": "also: first maximiser among listed entries, ValueError for an empty table"
  },
  {
   "property": "C09",
   "status": "proved",
   "theorems": [
    "Verif.Sparse.C09_normalize",
    "Verif.Sparse.C09_weight",
    "Verif.Sparse.C09_normalize_empty"
   ],
   "note": "positive mass; empty table raises ValueError"
  },
  {
   "property": "C10",
   "status": "proved",
   "theorems": [
    "Verif.Sparse.C10_equals_symm",
    "Verif.Sparse.C10_equals_sound",
    "Verif.Sparse.C10_equals_reorder"
   ],
   "note": "zero-default factors"
  },
  {
   "property": "C11",
   "status": "proved",
   "theorems": [
    "Verif.Sparse.C11_kl_divergence",
    "Verif.Sparse.C11_distance_from_vacuous"
   ],
   "note": "exact value, non-negative, zero only for equal distributions; +inf without support; the error branch is unreachable"
  },
  {
   "property": "C12",
   "status": "proved",
   "theorems": [
    "Verif.Sparse.C12_hash_any",
    "Verif.Sparse.C12_hash_divide",
    "Verif.Sparse.C12_hash_marginalize"
   ],
   "note": "for every iteration order of Python sets"
  },
  {
   "property": "C13",
   "status": "partial",
   "theorems": [
    "Verif.Sparse.C13_multiply_partial",
    "Verif.Sparse.C13_multiply_loses_entries",
    "Verif.Sparse.C13_reorder_reduce_lose_default"
   ],
   "note": "claim is false (two witnesses); the part that holds for multiply is proved, divide satisfies it (C04)"
  },
  {
   "property": "C14",
   "status": "proved",
   "theorems": [
    "Verif.Cat.C14_table",
    "Verif.Cat.C14_table_nonneg",
    "Verif.Cat.C14_table_range"
   ],
   "note": "constructor from a probability table"
  },
  {
   "property": "C15",
   "status": "proved",
   "theorems": [
    "Verif.Cat.C15_multiply_pointwise",
    "Verif.Cat.C15_multiply_prob",
    "Verif.Cat.C15_multiply_errors"
   ],
   "note": "all variable orders and overlaps"
  },
  {
   "property": "C16",
   "status": "proved",
   "theorems": [
    "Verif.Cat.C16_divide_pointwise",
    "Verif.Cat.C16_divide_inverts",
    "Verif.Cat.C16_divide_foreign"
   ],
   "note": "all divisors with contained scope"
  },
  {
   "property": "C17",
   "status": "partial",
   "theorems": [
    "Verif.Cat.C17_cancel_partial",
    "Verif.Cat.C17_cancel_suffix",
    "Verif.Cat.C17_cancel_raises_index",
    "Verif.Cat.C17_cancel_raises_value",
    "Verif.Cat.C17_cancel_misaligned"
   ],
   "note": "claim is false for divisors over a strict subset that is not aligned (witnesses); proved for operands with equal variables in equal order, and characterised (IndexError exactly on 0/0) for divisors over a suffix of the scope"
  },
  {
   "property": "C18",
   "status": "partial",
   "theorems": [
    "Verif.Cat.C18_marginalize_partial",
    "Verif.Cat.C18_marginalize_wrong_order",
    "Verif.Cat.C18_marginalize_hash_dependent",
    "Verif.Cat.C18_marginalize_card_one"
   ],
   "note": "claim is false when the requested order differs from the stored order (witnesses); or a kept variable has one value; proved for the stored order without one-valued kept variables"
  },
  {
   "property": "C19",
   "status": "proved",
   "theorems": [
    "Verif.Cat.C19_reduce_restricts",
    "Verif.Cat.C19_reduce_nat",
    "Verif.Cat.C19_reduce_range"
   ],
   "note": "evidence in any order, negative indices, range errors"
  },
  {
   "property": "C20",
   "status": "proved",
   "theorems": [
    "Verif.Cat.C20_reorder_preserves"
   ],
   "note": "all permutations"
  },
  {
   "property": "C21",
   "status": "proved",
   "theorems": [
    "Verif.Cat.C21_potential"
   ],
   "note": "potential of a full assignment in any order"
  },
  {
   "property": "C22",
   "status": "proved",
   "theorems": [
    "Verif.Cat.C22_argmax_first"
   ],
   "note": "first maximiser in lexicographic order"
  },
  {
   "property": "C23",
   "status": "proved",
   "theorems": [
    "Verif.Cat.C23_normalize"
   ],
   "note": "positive total mass"
  },
  {
   "property": "C24",
   "status": "proved",
   "theorems": [
    "Verif.Cat.C24_kl_divergence",
    "Verif.Cat.C24_distance_from_vacuous"
   ],
   "note": "exact value for any two variable orders, non-negative, zero only for equal distributions, +inf without support; distance from vacuous = log N - entropy"
  },
  {
   "property": "C25",
   "status": "partial",
   "theorems": [
    "Verif.Cat.C25_equals_partial",
    "Verif.Cat.C25_equals_reorder",
    "Verif.Cat.C25_equals_not_symmetric",
    "Verif.Cat.C25_equals_broadcasts"
   ],
   "note": "symmetry is false for every relative tolerance in (0,1); soundness fails for different cardinalities (broadcasting witness); the rest is proved"
  },
  {
   "property": "C26",
   "status": "partial",
   "theorems": [
    "Verif.Cat.C26_multiply",
    "Verif.Cat.C26_divide",
    "Verif.Cat.C26_reorder",
    "Verif.Cat.C26_reduce_partial",
    "Verif.Cat.C26_normalize",
    "Verif.Cat.C26_reduce_raises"
   ],
   "note": "agreement proved for all five operations except that sparse reduce raises KeyError on zero-probability evidence (witness)"
  },
  {
   "property": "C27",
   "status": "proved",
   "theorems": [
    "Verif.Cat.C27_names_kept",
    "Verif.Cat.C27_names_multiply",
    "Verif.Cat.C27_names_inconsistent"
   ],
   "note": "for every successful result, whatever the arguments"
  },
  {
   "property": "C42",
   "status": "proved",
   "theorems": [
    "Verif.CG.C42_ids_unique",
    "Verif.CG.C42_no_id_error"
   ],
   "note": "any factor class, any variable names"
  },
  {
   "property": "C43",
   "status": "proved",
   "theorems": [
    "Verif.CG.C43_absorb_partitions",
    "Verif.CG.C43_absorb_product"
   ],
   "note": "any factor class obeying the stated laws (pointwise product)"
  },
  {
   "property": "C44",
   "status": "proved",
   "theorems": [
    "Verif.CG.C44_evidence"
   ],
   "note": "any lawful factor class"
  },
  {
   "property": "C45",
   "status": "proved",
   "theorems": [
    "Verif.CG.C45_running_intersection"
   ],
   "note": "any factor class; networkx spanning tree modelled as Kruskal"
  },
  {
   "property": "C46",
   "status": "proved",
   "theorems": [
    "Verif.CG.C46_sepsets"
   ],
   "note": "any factor class"
  },
  {
   "property": "C47",
   "status": "proved",
   "theorems": [
    "Verif.CG.C47_budget",
    "Verif.CG.C47_single",
    "Verif.CG.C47_total"
   ],
   "note": "any factor class"
  },
  {
   "property": "C48",
   "status": "proved",
   "theorems": [
    "Verif.CG.C48_early_stop"
   ],
   "note": "any factor class, linearly ordered gains"
  },
  {
   "property": "C49",
   "status": "proved",
   "theorems": [
    "Verif.CG.C49_greedy",
    "Verif.CG.C49_gain_fresh"
   ],
   "note": "any factor class"
  },
  {
   "property": "C50",
   "status": "proved",
   "theorems": [
    "Verif.CG.C50_belief",
    "Verif.CG.C50_zeros_stay"
   ],
   "note": "any lawful factor class, any schedule"
  },
  {
   "property": "C51",
   "status": "partial",
   "theorems": [
    "Verif.CG.C51_joint_partial",
    "Verif.CG.C51_unavailable"
   ],
   "note": "invariance proved once every path has sent a message, at evidence-consistent assignments; before that get_posterior_joint raises (proved)"
  },
  {
   "property": "C52",
   "status": "proved",
   "theorems": [
    "Verif.CG.C52_exact_marginals",
    "Verif.CG.C52_sparse",
    "Verif.CG.C52_sparse_process",
    "Verif.CG.C52_single_cluster",
    "Verif.CG.C52_tree_inference"
   ],
   "note": "any lawful discrete factor class, any schedule; edges without a cycle; instance and total correctness for SparseCategorical"
  },
  {
   "property": "C53",
   "status": "proved",
   "theorems": [
    "Verif.CG.C53_get_marginal"
   ],
   "note": "any factor class"
  },
  {
   "property": "C54",
   "status": "partial",
   "theorems": [
    "Verif.CG.C54_process_again_partial",
    "Verif.CG.C54_single_cluster_violation"
   ],
   "note": "sparse factors, two or more clusters; false for one cluster with special evidence (proved)"
  },
  {
   "property": "C55",
   "status": "proved",
   "theorems": [
    "Verif.CG.C55_reject",
    "Verif.CG.C55_accept",
    "Verif.CG.C55_delivery"
   ],
   "note": "any factor class"
  },
  {
   "property": "C78",
   "status": "proved",
   "theorems": [
    "Verif.CG.C78_inference_never_fails"
   ],
   "note": "sparse categorical factors with default -inf"
  },
  {
   "property": "C79",
   "status": "proved",
   "theorems": [
    "Verif.CG.C79_tree_converges",
    "Verif.CG.C79_positive_tree_converges"
   ],
   "note": "sparse categorical factors; exact real arithmetic"
  },
  {
   "property": "C28",
   "status": "proved",
   "theorems": [
    "Verif.Gauss.C28_forms"
   ],
   "note": "real arithmetic"
  },
  {
   "property": "C29",
   "status": "proved",
   "theorems": [
    "Verif.Gauss.C29_weight",
    "Verif.Gauss.C29_not_vacuous"
   ],
   "note": "Lebesgue integral in n dimensions; objects not flagged as vacuous"
  },
  {
   "property": "C30",
   "status": "proved",
   "theorems": [
    "Verif.Gauss.C30_multiply"
   ],
   "note": "any history of calls"
  },
  {
   "property": "C31",
   "status": "proved",
   "theorems": [
    "Verif.Gauss.C31_divide",
    "Verif.Gauss.C31_multiply_divide"
   ],
   "note": "any history of calls"
  },
  {
   "property": "C32",
   "status": "partial",
   "theorems": [
    "Verif.Gauss.C32_marginalize_partial",
    "Verif.Gauss.C32_posDef",
    "Verif.Gauss.C32_flagged"
   ],
   "note": "proved for objects not flagged as vacuous with positive definite marginalised block; false for flagged objects (proved)"
  },
  {
   "property": "C33",
   "status": "partial",
   "theorems": [
    "Verif.Gauss.C33_reduce_partial",
    "Verif.Gauss.C33_all_observed"
   ],
   "note": "proved while a variable is left unobserved; with all variables observed reduce raises (proved)"
  },
  {
   "property": "C34",
   "status": "partial",
   "theorems": [
    "Verif.Gauss.C34_reorder_partial",
    "Verif.Gauss.C34_repeated_name"
   ],
   "note": "lists with repeated names are accepted (proved)"
  },
  {
   "property": "C35",
   "status": "proved",
   "theorems": [
    "Verif.Gauss.C35_normalize"
   ],
   "note": "positive definite precision"
  },
  {
   "property": "C36",
   "status": "partial",
   "theorems": [
    "Verif.Gauss.C36_kl_partial",
    "Verif.Gauss.C36_order"
   ],
   "note": "proved for operands in the same order, exact unless equals with its tolerance answers yes; false for different orders (proved)"
  },
  {
   "property": "C37",
   "status": "partial",
   "theorems": [
    "Verif.Gauss.C37_equals_partial",
    "Verif.Gauss.C37_reorders"
   ],
   "note": "functions by name are kept; the order of the argument's variables may change (proved)"
  },
  {
   "property": "C38",
   "status": "proved",
   "theorems": [
    "Verif.Gauss.C38_forms_agree",
    "Verif.Gauss.C38_accessors",
    "Verif.Gauss.C38_copy_weight"
   ],
   "note": "any history of calls"
  },
  {
   "property": "C39",
   "status": "partial",
   "theorems": [
    "Verif.Gauss.C39_vacuous_partial",
    "Verif.Gauss.C39_not_constant",
    "Verif.Gauss.C39_constant_lost"
   ],
   "note": "see the violations proved beside it"
  },
  {
   "property": "C40",
   "status": "partial",
   "theorems": [
    "Verif.Gauss.C40_linear_partial",
    "Verif.Gauss.C40_not_square"
   ],
   "note": "square matrices; others raise (proved)"
  },
  {
   "property": "C41",
   "status": "partial",
   "theorems": [
    "Verif.Gauss.C41_template_partial",
    "Verif.Gauss.C41_template_marginal",
    "Verif.Gauss.C41_linear_template"
   ],
   "note": "the produced factor is always flagged as vacuous (violation proved)"
  },
  {
   "property": "C62",
   "status": "partial",
   "theorems": [
    "Verif.Gauss.C62_split_partial",
    "Verif.Gauss.C62_weight"
   ],
   "note": "mean and variance; the weight becomes one (violation proved)"
  },
  {
   "property": "C73",
   "status": "proved",
   "theorems": [
    "Verif.Gauss.C73_matrix",
    "Verif.Gauss.C73_vector",
    "Verif.Gauss.C73_shape"
   ],
   "note": "all matrices and label lists"
  },
  {
   "property": "C80",
   "status": "proved",
   "theorems": [
    "Verif.Gauss.C80_equals"
   ],
   "note": "any history of calls"
  },
  {
   "property": "C56",
   "status": "proved",
   "theorems": [
    "Verif.Mix.C56_multiply",
    "Verif.Mix.C56_multiply_gaussian",
    "Verif.Mix.make_isMix"
   ],
   "note": "mixtures of components from any history"
  },
  {
   "property": "C57",
   "status": "partial",
   "theorems": [
    "Verif.Mix.C57_reduce_partial",
    "Verif.Mix.C57_marginalize_partial",
    "Verif.Mix.C57_all_observed"
   ],
   "note": "observing every variable raises (proved); components flagged vacuous are excluded from marginals"
  },
  {
   "property": "C58",
   "status": "proved",
   "theorems": [
    "Verif.Mix.C58_weight",
    "Verif.Mix.C58_normalize"
   ],
   "note": "components with positive definite precisions, for which the weight exists"
  },
  {
   "property": "C59",
   "status": "proved",
   "theorems": [
    "Verif.Mix.C59_moment_match"
   ],
   "note": "components with positive definite precisions, for which the moments exist"
  },
  {
   "property": "C60",
   "status": "partial",
   "theorems": [
    "Verif.Mix.C60_equals_partial",
    "Verif.Mix.C60_order",
    "Verif.Mix.C60_asymmetric"
   ],
   "note": "what the comparison does is proved; order dependence and asymmetry are violations (proved)"
  },
  {
   "property": "C61",
   "status": "proved",
   "theorems": [
    "Verif.Mix.C61_divide_gaussian",
    "Verif.Mix.C61_divide_single",
    "Verif.Mix.C61_multiply_divide",
    "Verif.Mix.C61_divide_matched"
   ],
   "note": "also division by a mixture with cancel method 0; for methods 1 and 2 see C110 and C111"
  },
  {
   "property": "C81",
   "status": "partial",
   "theorems": [
    "Verif.Mix.C81_equals_partial",
    "Verif.Mix.C81_equals_changes_argument"
   ],
   "note": "same variable order; for another order the argument changes (violation proved)"
  },
  {
   "property": "C82",
   "status": "partial",
   "theorems": [
    "Verif.Mix.C82_copy_partial",
    "Verif.Mix.C82_copy_cancel_method"
   ],
   "note": "the cancel method is lost (violation proved)"
  },
  {
   "property": "C83",
   "status": "proved",
   "theorems": [
    "Verif.Mix.C83_from_sklearn"
   ],
   "note": "positive weights"
  },
  {
   "property": "C63",
   "status": "partial",
   "theorems": [
    "Verif.Fact.C63_joint",
    "Verif.Fact.C63_multiply_partial",
    "Verif.Fact.C63_new_variable"
   ],
   "note": "joint and product proved; var_names is stale for new variables (violation proved)"
  },
  {
   "property": "C64",
   "status": "partial",
   "theorems": [
    "Verif.Fact.C64_divide_partial",
    "Verif.Fact.C64_not_exact"
   ],
   "note": "a factor found equal to the divisor is deleted although the functions may differ (violation proved)"
  },
  {
   "property": "C65",
   "status": "partial",
   "theorems": [
    "Verif.Fact.C65_marginalize_partial",
    "Verif.Fact.C65_proper",
    "Verif.Fact.C65_one_variable",
    "Verif.Fact.C65_raises",
    "Verif.Fact.C65_chain",
    "Verif.Fact.C65_unlisted"
   ],
   "note": "proved when sharing dropped variables is transitive between factors; a chain of three factors gives a wrong weight and unlisted variables are never dropped (violations proved)"
  },
  {
   "property": "C66",
   "status": "partial",
   "theorems": [
    "Verif.Fact.C66_reduce_partial",
    "Verif.Fact.C66_raises"
   ],
   "note": "evidence that covers a factor and more raises (violation proved for all such inputs)"
  },
  {
   "property": "C67",
   "status": "partial",
   "theorems": [
    "Verif.Fact.C67_equals_partial",
    "Verif.Fact.C67_answers",
    "Verif.Fact.C67_gaussian",
    "Verif.Fact.C67_repeated_scope"
   ],
   "note": "pairwise distinct scopes; with repeated scopes neither sound nor reflexive (violation proved)"
  },
  {
   "property": "C68",
   "status": "partial",
   "theorems": [
    "Verif.Fact.C68_normalize_partial",
    "Verif.Fact.C68_raises"
   ],
   "note": "one factor; two or more always raise (violation proved)"
  },
  {
   "property": "C69",
   "status": "proved",
   "theorems": [
    "Verif.Sigma.C69_sigma_points",
    "Verif.Sigma.C69_raises",
    "Verif.Sigma.C69_unique",
    "Verif.Sigma.C69_list"
   ],
   "note": "exact arithmetic; numpy's Cholesky factor by its defining equation (proved to exist exactly for positive definite matrices and to be unique)"
  },
  {
   "property": "C70",
   "status": "proved",
   "theorems": [
    "Verif.Sigma.C70_affine",
    "Verif.Sigma.C70_untransformed"
   ],
   "note": "exact arithmetic"
  },
  {
   "property": "C71",
   "status": "partial",
   "theorems": [
    "Verif.NLG.C71_multiply",
    "Verif.NLG.C71_divide",
    "Verif.NLG.C71_undo_conditional",
    "Verif.NLG.C71_undo_conditioning_partial",
    "Verif.NLG.C71_joint",
    "Verif.NLG.C71_vacuous",
    "Verif.NLG.C71_undo_raises"
   ],
   "note": "violated: flagged vacuous factors are dropped whatever their scope; dividing out the whole conditioning factor raises Exception"
  },
  {
   "property": "C72",
   "status": "partial",
   "theorems": [
    "Verif.NLG.C72_vacuous",
    "Verif.NLG.C72_computed_partial",
    "Verif.NLG.C72_all_observed",
    "Verif.NLG.C72_factor_observed"
   ],
   "note": "violated when all conditioning variables are observed: UnboundLocalError or AssertionError"
  },
  {
   "property": "C84",
   "status": "proved",
   "theorems": [
    "Verif.NLG.C84_affine"
   ],
   "note": "exact joint for affine transforms"
  },
  {
   "property": "C85",
   "status": "proved",
   "theorems": [
    "Verif.NLG.C85_reduce"
   ],
   "note": "evidence given in stages"
  },
  {
   "property": "C86",
   "status": "partial",
   "theorems": [
    "Verif.NLG.C86_marginalize",
    "Verif.NLG.C86_update_marginal",
    "Verif.NLG.C86_drop_raises",
    "Verif.NLG.C86_ignores_evidence"
   ],
   "note": "violated: dropping variables after an observation raises ValueError; while the joint is vacuous evidence and weight are ignored"
  },
  {
   "property": "C74",
   "status": "partial",
   "theorems": [
    "Verif.Utils.C74_remove_duplicate_values_partial",
    "Verif.Utils.C74_exact",
    "Verif.Utils.C74_empty",
    "Verif.Utils.C74_negative"
   ],
   "note": "violated by the empty list (IndexError) and negative tolerances"
  },
  {
   "property": "C75",
   "status": "proved",
   "theorems": [
    "Verif.Utils.C75_subset_evidence"
   ],
   "note": "any lists, also with repeated variables"
  },
  {
   "property": "C76",
   "status": "proved",
   "theorems": [
    "Verif.Fmt.C76_formattable",
    "Verif.Fmt.C76_formattable_conditional",
    "Verif.Fmt.C76_format",
    "Verif.Fmt.C76_plain",
    "Verif.Fmt.C76_raises",
    "Verif.Fmt.C76_no_templates",
    "Verif.Fmt.C76_constructor"
   ],
   "note": "str.format modelled; fields that are not plain names are an arbitrary parameter"
  },
  {
   "property": "C77",
   "status": "partial",
   "theorems": [
    "Verif.Anim.C77_sepset_symmetric",
    "Verif.Anim.C77_sepset_injective_partial",
    "Verif.Anim.C77_sepset_clash",
    "Verif.Anim.C77_sound_partial",
    "Verif.Anim.C77_joined",
    "Verif.Anim.C77_super_missing",
    "Verif.Anim.C77_incomplete"
   ],
   "note": "symmetric name proved; the substring check is violated by concrete strings"
  },
  {
   "property": "C87",
   "status": "proved",
   "theorems": [
    "Verif.CG.C87_gaussian_exact",
    "Verif.CG.C87_gaussian_tree_inference"
   ],
   "note": "Gaussian factors; exact real arithmetic; convergence is exact proportionality (gain zero also allows messages that equals finds equal within 1e-4)"
  },
  {
   "property": "C88",
   "status": "proved",
   "theorems": [
    "Verif.CG.C88_gaussian_never_fails"
   ],
   "note": "factors with a finite integral, each with an unobserved variable"
  },
  {
   "property": "C89",
   "status": "proved",
   "theorems": [
    "Verif.CG.C89_gaussian_tree_converges",
    "Verif.CG.C89_gaussian_exact_convergence"
   ],
   "note": "factors with a finite integral; exact real arithmetic"
  },
  {
   "property": "C90",
   "status": "partial",
   "theorems": [
    "Verif.NlgMix.C90_multiply_partial",
    "Verif.NlgMix.C90_scope",
    "Verif.NlgMix.C90_split_partial",
    "Verif.NlgMix.C90_violated",
    "Verif.NlgMix.C90_gaussian_raises"
   ],
   "note": "violated when a single component over one variable is split: its weight is lost; multiplying by a Gaussian always raises TypeError in the model (by definition)"
  },
  {
   "property": "C91",
   "status": "partial",
   "theorems": [
    "Verif.NlgMix.C91_joint_partial",
    "Verif.NlgMix.C91_order"
   ],
   "note": "violated: components whose joints come in different variable orders raise ValueError"
  },
  {
   "property": "C92",
   "status": "proved",
   "theorems": [
    "Verif.NlgMix.C92_reduce"
   ],
   "note": "components with the same conditional, conditioning factor and observed variables"
  },
  {
   "property": "C93",
   "status": "partial",
   "theorems": [
    "Verif.NlgMix.C93_joint_marginal_partial",
    "Verif.NlgMix.C93_never_returns",
    "Verif.NlgMix.C93_type_error"
   ],
   "note": "violated: marginalize never returns; the marginal can be had from the joint distribution"
  },
  {
   "property": "C94",
   "status": "proved",
   "theorems": [
    "Verif.NlgMix.C94_divide_gaussian",
    "Verif.NlgMix.C94_divide_mixture",
    "Verif.NlgMix.C94_divide_returns"
   ],
   "note": "exact real arithmetic"
  },
  {
   "property": "C95",
   "status": "partial",
   "theorems": [
    "Verif.NlgMix.C95_copy_partial",
    "Verif.NlgMix.C95_flag",
    "Verif.NlgMix.C95_violated"
   ],
   "note": "violated: the flag split_singles_before_absorb is lost, so products of a copy differ"
  },
  {
   "property": "C96",
   "status": "proved",
   "theorems": [
    "Verif.NLG.C96_weight"
   ],
   "note": "any transform that returns a column for every point"
  },
  {
   "property": "C97",
   "status": "partial",
   "theorems": [
    "Verif.CG.C97_dense_exact_partial",
    "Verif.CG.C97_dense_tree_inference_partial",
    "Verif.CG.C97_joint_query_wrong",
    "Verif.CG.C97_hash_dependent"
   ],
   "note": "proved for factors any two of which have at most one unobserved variable in common and queries for one variable (zeros allowed if the run returned); false for queries in another order than stored and for sepsets of two variables (witnesses); exact real arithmetic"
  },
  {
   "property": "C98",
   "status": "partial",
   "theorems": [
    "Verif.CG.C98_dense_never_fails_partial",
    "Verif.CG.C98_dense_step",
    "Verif.CG.C98_zero_raises"
   ],
   "note": "proved for factors without zeros, any two with at most one unobserved variable in common; with zeros it is characterised exactly when passing a message raises IndexError, with a witness"
  },
  {
   "property": "C99",
   "status": "partial",
   "theorems": [
    "Verif.CG.C99_dense_tree_converges_partial"
   ],
   "note": "factors without zeros, any two with at most one unobserved variable in common; exact real arithmetic"
  },
  {
   "property": "C100",
   "status": "partial",
   "theorems": [
    "Verif.CG.C100_not_nested_partial",
    "Verif.CG.C100_chain",
    "Verif.CG.C100_equal"
   ],
   "note": "proved when no three factors have nested scopes, for strict containment; three nested scopes and equal scopes violate it (witnesses)"
  },
  {
   "property": "C101",
   "status": "proved",
   "theorems": [
    "Verif.CG.C101_sparse_consistent",
    "Verif.CG.C101_gaussian_consistent"
   ],
   "note": "sparse factors: all gains at most 0; Gaussian factors: every next message is a multiple of the last one"
  },
  {
   "property": "C102",
   "status": "proved",
   "theorems": [
    "Verif.CG.C102_posterior",
    "Verif.CG.C102_order_independent",
    "Verif.CG.C102_gaussian_posterior",
    "Verif.CG.C102_gaussian_order_independent"
   ],
   "note": "sparse factors: all gains at most 0; Gaussian factors: every next message is a multiple of the last one; graphs without cycles"
  },
  {
   "property": "C103",
   "status": "partial",
   "theorems": [
    "Verif.Conv.C103_matrix",
    "Verif.Conv.C103_matrix_sound",
    "Verif.Conv.C103_vector",
    "Verif.Conv.C103_scalar",
    "Verif.Conv.C103_gaussian_cov_partial",
    "Verif.Conv.C103_gaussian_can_partial",
    "Verif.Conv.C103_gaussian_sound",
    "Verif.Conv.C103_vector_violated",
    "Verif.Conv.C103_scalar_violated",
    "Verif.Conv.C103_error_violated"
   ],
   "note": "proved for matrices and for the documented forms of vectors and numbers; lists of lists are taken as vectors and arrays of shape (1, n) as numbers (witnesses)"
  },
  {
   "property": "C104",
   "status": "partial",
   "theorems": [
    "Verif.Conv.C104_single_name_partial",
    "Verif.Conv.C104_single_name_violated",
    "Verif.Conv.C104_single_name_witness"
   ],
   "note": "holds for marginals and for names of one character; longer names are taken as sequences of characters by the constructor"
  },
  {
   "property": "C105",
   "status": "partial",
   "theorems": [
    "Verif.CG.C105_sort_almost_sorted_partial",
    "Verif.CG.C105_short",
    "Verif.CG.C105_needs_condition"
   ],
   "note": "proved for at least two elements; shorter queues raise IndexError"
  },
  {
   "property": "C106",
   "status": "proved",
   "theorems": [
    "Verif.C106_dense",
    "Verif.C106_sparse",
    "Verif.C106_agree",
    "Verif.C106_sum"
   ],
   "note": "rows as lists; conversion to numpy arrays not modelled"
  },
  {
   "property": "C107",
   "status": "partial",
   "theorems": [
    "Verif.C107_named_rows_partial",
    "Verif.C107_names_violated"
   ],
   "note": "proved when the names of each variable are distinct; the constructor only counts different names"
  },
  {
   "property": "C108",
   "status": "proved",
   "theorems": [
    "Verif.Sampling.C108_gaussian",
    "Verif.Sampling.C108_raises",
    "Verif.Sampling.C108_mixture",
    "Verif.Sampling.C108_none"
   ],
   "note": "the random numbers are parameters with the laws numpy documents; a mixture asked for no samples raises ValueError"
  },
  {
   "property": "C109",
   "status": "partial",
   "theorems": [
    "Verif.Sampling.C109_nonlinear_partial",
    "Verif.Sampling.C109_mixture_violated",
    "Verif.Sampling.C109_mixture_rows",
    "Verif.Sampling.C109_order"
   ],
   "note": "the law is exact for a single non-linear Gaussian, with rows in the order of its joint instead of var_names; a mixture of k factors returns k times the rows"
  },
  {
   "property": "C110",
   "status": "partial",
   "theorems": [
    "Verif.Mix.C110_equal_components_partial",
    "Verif.Mix.C110_formula",
    "Verif.Mix.C110_equal_components_violated",
    "Verif.Mix.C110_witness",
    "Verif.Mix.C110_not_normalisable"
   ],
   "note": "the constant of the fitted Gaussian loses its sign, so the quotient is exact only if no component of the numerator exceeds the divisor at the origin; with different components the result can be exp(x^2/6)"
  },
  {
   "property": "C111",
   "status": "partial",
   "theorems": [
    "Verif.Mix.C111_shape_partial",
    "Verif.Mix.C111_scale_violated",
    "Verif.Mix.C111_raises",
    "Verif.Mix.C111_unique_modes"
   ],
   "note": "one variable: the result is proportional to the quotient with the wrong constant; two or more variables: always raises because the modes are compared as arrays"
  },
  {
   "property": "C112",
   "status": "proved",
   "theorems": [
    "Verif.Mix.C112_best",
    "Verif.Mix.C112_global",
    "Verif.Mix.C112_means",
    "Verif.Mix.C112_fails"
   ],
   "note": "the optimiser is a parameter"
  },
  {
   "property": "C113",
   "status": "partial",
   "theorems": [
    "Verif.NLG.C113_parameters",
    "Verif.NLG.C113_equals_partial",
    "Verif.NLG.C113_fresh",
    "Verif.NLG.C113_equals_violated",
    "Verif.NLG.C113_nonlinear"
   ],
   "note": "the parameters are those of the joint distribution for every transform; equals is right once a parameter has been read, and wrong before"
  },
  {
   "property": "C114",
   "status": "partial",
   "theorems": [
    "Verif.Gauss.C114_repr_partial",
    "Verif.Gauss.C114_show",
    "Verif.Gauss.C114_vacuous",
    "Verif.Gauss.C114_no_covariance"
   ],
   "note": "repr holds for strictly concave factors; it raises for constructed vacuous factors and for singular precisions. show holds for all."
  },
  {
   "property": "C115",
   "status": "proved",
   "theorems": [
    "Verif.Gauss.C115_random",
    "Verif.Gauss.C115_errors"
   ],
   "note": "The draws are inputs of the model; only their range is assumed."
  },
  {
   "property": "C116",
   "status": "partial",
   "theorems": [
    "Verif.CG.C116_linear_gaussian_never_fails_partial",
    "Verif.CG.C116_two_parents_raise",
    "Verif.CG.C116_kl_raises",
    "Verif.CG.C116_messages_raise"
   ],
   "note": "holds if every factor, given the evidence, can be integrated over all but any one of its unobserved variables and clusters share at most one unobserved variable; outside these conditions the constructor or the divergence of two messages raises (witnesses)"
  },
  {
   "property": "C117",
   "status": "proved",
   "theorems": [
    "Verif.CG.C117_linear_gaussian_converges",
    "Verif.CG.C117_exact_convergence"
   ],
   "note": "same local hypotheses on the factors as C116"
  },
  {
   "property": "C118",
   "status": "proved",
   "theorems": [
    "Verif.CG.C118_linear_gaussian_exact"
   ],
   "note": "same local hypotheses on the factors as C116; the joint posterior is integrable"
  },
  {
   "property": "C119",
   "status": "partial",
   "theorems": [
    "Verif.C119_dense_partial",
    "Verif.C119_sparse_partial",
    "Verif.C119_rows_differ",
    "Verif.C119_long_index_violated",
    "Verif.C119_no_variables_violated"
   ],
   "note": "The cells are aligned if indices have at most seven digits and there is at least one variable; outside this they are not (witnesses). The format of the value is a parameter without tabs and line breaks."
  },
  {
   "property": "C120",
   "status": "partial",
   "theorems": [
    "Verif.Plot.C120_convergence_partial",
    "Verif.Plot.C120_no_finite",
    "Verif.Plot.C120_zero_violated",
    "Verif.Plot.C120_log_violated"
   ],
   "note": "Holds if some gain is finite and the largest finite height is positive; otherwise it raises or draws infinite gains at or below finite ones (witnesses)."
  },
  {
   "property": "C121",
   "status": "partial",
   "theorems": [
    "Verif.Plot.C121_gaussian_line",
    "Verif.Plot.C121_gaussian_surface_partial",
    "Verif.Plot.C121_mixture_line_partial",
    "Verif.Plot.C121_mixture_surface_partial",
    "Verif.Plot.C121_mixture_log",
    "Verif.Plot.C121_mixture_log_violated",
    "Verif.Plot.C121_vacuous_violated",
    "Verif.Plot.C121_one_limit_ignored",
    "Verif.Plot.C121_other_dimensions"
   ],
   "note": "Violated: with log=True the curve of a mixture over one variable is the sum of the component log potentials; a vacuous Gaussian over two variables cannot be plotted even with limits; one limit alone is ignored by mixtures over two variables."
  },
  {
   "property": "C122",
   "status": "partial",
   "theorems": [
    "Verif.Fmt.C122_categorical_table",
    "Verif.Fmt.C122_categorical_tensor",
    "Verif.Fmt.C122_sparse",
    "Verif.Fmt.C122_gaussian_partial",
    "Verif.Fmt.C122_nonlinear",
    "Verif.Fmt.C122_instances",
    "Verif.Fmt.C122_clash",
    "Verif.Fmt.C122_clash_nonlinear",
    "Verif.Fmt.C122_missing",
    "Verif.Fmt.C122_given",
    "Verif.Fmt.C122_nothing",
    "Verif.Fmt.C122_conditional_ignored"
   ],
   "note": "Violated: NonLinearGaussianTemplate drops conditional_vars given together with a dictionary instead of refusing them (C122_conditional_ignored); factors from GaussianTemplate have the right function but are marked vacuous (C41)."
  },
  {
   "property": "C123",
   "status": "partial",
   "theorems": [
    "Verif.Cat.C123_dense",
    "Verif.Cat.C123_dense_vacuous",
    "Verif.Sparse.C123_sparse",
    "Verif.Sparse.C123_sparse_vacuous",
    "Verif.CG.C123_messages",
    "Verif.CG.C123_process",
    "Verif.CG.C123_dense_messages",
    "Verif.Gauss.C123_gauss_partial",
    "Verif.Gauss.C123_gauss_violated"
   ],
   "note": "Pinsker's inequality for the computed divergence. Missing: Gaussians whose parameters agree up to 1/10000 get divergence zero although they differ (as in C36), and message passing for Gaussians. Message passing for dense factors under the conditions of C97 (C123_dense_messages)."
  },
  {
   "property": "C124",
   "status": "partial",
   "theorems": [
    "Verif.CG.C124_exact_partial",
    "Verif.CG.C124_swallowed",
    "Verif.CG.C124_swallowed_witness",
    "Verif.CG.C124_inputs_observed",
    "Verif.CG.C124_flat",
    "Verif.CG.C124_flat_witness"
   ],
   "note": "Holds if no Gaussian has a scope strictly containing that of a non-linear Gaussian, no flat factor or message carries a weight other than one, and each non-linear cluster knows something about all its conditioning variables. Violated otherwise: a Gaussian with a larger scope silently swallows a non-linear Gaussian (C124_swallowed); observing all inputs makes every query raise (C124_inputs_observed); observing only the outputs gives a flat marginal over the inputs (C124_flat)."
  },
  {
   "property": "C125",
   "status": "partial",
   "theorems": [
    "Verif.CG.C125_exact_partial",
    "Verif.CG.C125_alone",
    "Verif.CG.C125_overlap",
    "Verif.CG.C125_mixture_and_gaussian",
    "Verif.CG.C125_violated_overlap",
    "Verif.CG.C125_violated_overlap_witness",
    "Verif.CG.C125_violated_inside",
    "Verif.CG.C125_violated_inside_witness"
   ],
   "note": "Marginals are exact in every graph that can be built (C125_exact_partial), for instance from a mixture and a Gaussian inside its scope (C125_mixture_and_gaussian). Violated: a mixture can send no message, so a mixture that shares an unobserved variable with a factor can be in a graph with it only if one of the factors covers both (C125_overlap, C125_violated_overlap), and not at all if its scope is strictly inside that of a Gaussian (C125_violated_inside)."
  },
  {
   "property": "C126",
   "status": "proved",
   "theorems": [
    "Verif.CG.C126_support",
    "Verif.CG.C126_sparse",
    "Verif.CG.C126_solved",
    "Verif.CG.C126_dense_partial",
    "Verif.Sparse.C126_cardinality_needed"
   ],
   "note": "For any lawful class of factors and any order of messages (C126_support); for sparse factors with arbitrary assignment values, that building, process_graph and get_marginal return and keep all solutions (C126_sparse); and that reading off a determined variable with argmax gives the solution (C126_solved). For dense factors single variables, under the conditions of C97 (C126_dense_partial). Factors must not have more values than their cardinality (C126_cardinality_needed). Real arithmetic: underflow of a positive potential to zero is outside the model."
  },
  {
   "property": "C127",
   "status": "partial",
   "theorems": [
    "Verif.Opr.C127_mul_sparse",
    "Verif.Opr.C127_mul_dense",
    "Verif.Opr.C127_mul_gauss",
    "Verif.Opr.C127_mul_mix",
    "Verif.Opr.C127_mul_fact",
    "Verif.Opr.C127_ne",
    "Verif.Opr.C127_division_violated",
    "Verif.Opr.C127_division_witness",
    "Verif.Opr.C127_foreign_violated",
    "Verif.Opr.C127_asymmetric"
   ],
   "note": "f * g is the product (C127_mul_sparse, C127_mul_dense, C127_mul_gauss, C127_mul_mix, C127_mul_fact) and f != g negates f == g (C127_ne). Violated: Factor defines __div__, which Python 3 never calls, so f / g raises TypeError (C127_division_violated, C127_division_witness); comparing factors of different classes raises instead of answering false (C127_foreign_violated), and only in one order for factorised factors (C127_asymmetric). Missing: non-linear Gaussians."
  },
  {
   "property": "C128",
   "status": "proved",
   "theorems": [
    "Verif.Opr.C128_equals",
    "Verif.Opr.C128_copy"
   ],
   "note": "Messages of sparse factors with default -inf. The identity of the objects (uuid) is not modelled."
  },
  {
   "property": "C129",
   "status": "partial",
   "theorems": [
    "Verif.CG.C129_curves",
    "Verif.CG.C129_two_clusters",
    "Verif.CG.C129_axis_violated",
    "Verif.CG.C129_axis_witness"
   ],
   "note": "One curve per path with the right label; each curve lists the values its gain took, from the distance from vacuous of the first message to the current gain, with one entry for each message sent along the path or received by its sender (C129_curves). The abscissa is the iteration in graphs of two clusters (C129_two_clusters). Violated in larger graphs: a message elsewhere adds no point, so later values are drawn at the wrong iteration (C129_axis_violated, C129_axis_witness)."
  },
  {
   "property": "C130",
   "status": "partial",
   "theorems": [
    "Verif.Mix.C130_constructor_partial",
    "Verif.Mix.C130_operands_partial",
    "Verif.Mix.C130_violated",
    "Verif.Mix.C130_witness"
   ],
   "note": "The constructor keeps the method and the operands of an operation keep theirs. Violated: every mixture computed from another has method 0 and divides by moment matching (C130_violated, C130_witness)."
  },
  {
   "property": "C131",
   "status": "partial",
   "theorems": [
    "Verif.CG.C131_sparse_partial",
    "Verif.CG.C131_dense_partial",
    "Verif.CG.C131_gaussian_partial",
    "Verif.CG.C131_sparse_single_raises",
    "Verif.CG.C131_gaussian_single_raises",
    "Verif.CG.C131_violated"
   ],
   "note": "Equal answers, exceptions included, for sparse, dense and Gaussian factors without any condition on the factors, whenever the graph does not have exactly one cluster or the special evidence is the same. Violated for graphs of one cluster: process_graph passes all the special evidence to reduce, so an irrelevant entry raises for sparse (C131_sparse_single_raises, C131_violated) and Gaussian factors (C131_gaussian_single_raises). Missing: dense graphs of one cluster, where reduce ignores unknown names."
  },
  {
   "property": "C132",
   "status": "partial",
   "theorems": [
    "Verif.Sparse.C132_sound_partial",
    "Verif.Sparse.C132_complete_partial",
    "Verif.Sparse.C132_order_unsound",
    "Verif.Sparse.C132_order_asymmetric",
    "Verif.Sparse.C132_default_violated"
   ],
   "note": "Soundness for every pair of factors with the same order of variables and any defaults; completeness for exactly equal values if in addition the defaults agree or one factor stores every assignment. Violated: with different orders a factor with an impossible assignment equals a constant one (C132_order_unsound, reorder drops the default), the answer depends on which factor is asked (C132_order_asymmetric), and equal functions with different defaults are declared different (C132_default_violated)."
  },
  {
   "property": "C133",
   "status": "partial",
   "theorems": [
    "Verif.Gauss.C133_cov_exists",
    "Verif.Gauss.C133_necessary",
    "Verif.Gauss.C133_sufficient_partial",
    "Verif.Gauss.C133_indefinite"
   ],
   "note": "Real arithmetic. The check decides whether the precision has an inverse; it says yes whenever the parameters can be read; for positive semidefinite precisions a yes means they can. Violated for indefinite precisions: yes, but the log weight is NaN (C133_indefinite)."
  },
  {
   "property": "C134",
   "status": "partial",
   "theorems": [
    "Verif.Mix.C134_mixture_partial",
    "Verif.Fact.C134_factorised_partial",
    "Verif.Fact.C134_mixed_raises"
   ],
   "note": "Proved for Gaussians with right flags (the flag itself is C39). Violated: a factorised factor with constant and other factors raises NotImplementedError instead of answering no (C134_mixed_raises)."
  },
  {
   "property": "C135",
   "status": "partial",
   "theorems": [
    "Verif.Sparse.C135_weight_gap",
    "Verif.Sparse.C135_weight_partial",
    "Verif.Sparse.C135_normalize_partial"
   ],
   "note": "Exact totals: weight lacks the default of each assignment without an entry, and normalize leaves these unscaled. So both are right exactly if the default is -inf or every assignment has an entry, and violated otherwise (C135_weight_gap)."
  }
 ]
}