import Verif.Py
import Verif.Num
import Verif.Spec
import Verif.SparseModel
import Verif.PyLemmas
import Verif.SpecLemmas
import Verif.SparseLemmas
import Verif.SparseBinary
import Verif.SparseOps
import Verif.Gibbs
import Verif.SparseKl
import Verif.SparseProps
import Verif.SparseProps2
import Verif.Tensor
import Verif.CatModel
import Verif.TensorLemmas
import Verif.CatLemmas
import Verif.CatOps
import Verif.CatOps2
import Verif.CatProps
import Verif.CatProps2
import Verif.CatProps3
import Verif.CatProps4
import Verif.ClusterModel
import Verif.SumOut
import Verif.TreeExact
import Verif.ClusterBuild
import Verif.ClusterRip
import Verif.ClusterProps
import Verif.ClusterLaws
import Verif.ClusterRun
import Verif.ClusterBelief
import Verif.ClusterProps2
import Verif.ClusterProps3
import Verif.ClusterExact
import Verif.ClusterProps4
import Verif.ClusterSparse
import Verif.ClusterProps5
import Verif.ClusterTotal
import Verif.ClusterAgain
import Verif.ClusterProps6
import Verif.TreeWeight
import Verif.ClusterConverge
import Verif.ClusterProps7
import Verif.ClusterExamples
import Verif.GaussInt
import Verif.GaussModel
import Verif.GaussSpec
import Verif.GaussLemmas
import Verif.GaussOps
import Verif.GaussMarg
import Verif.GaussHist
import Verif.GaussDenote
import Verif.GaussProps
import Verif.GaussProps2
import Verif.GaussKl
import Verif.GaussProps3
import Verif.GaussProps4
import Verif.MixModel
import Verif.MixLemmas
import Verif.MixProps
import Verif.MixProps2
import Verif.MixProps3
import Verif.GaussPerm
import Verif.FactModel
import Verif.FactLemmas
import Verif.FactAgree
import Verif.FactProps
import Verif.FactProps2
import Verif.FactProps3
import Verif.FactProps6
import Verif.Fubini
import Verif.FactMarg
import Verif.FactProps4
import Verif.FactProps5
import Verif.SigmaModel
import Verif.SigmaLemmas
import Verif.SigmaProps
import Verif.NonLinModel
import Verif.NonLinLemmas
import Verif.NonLinJoint
import Verif.NonLinDensity
import Verif.NonLinState
import Verif.NonLinProps
import Verif.NonLinOps
import Verif.NonLinProps2
import Verif.NonLinProps3
import Verif.UtilsModel
import Verif.UtilsProps
import Verif.FormatModel
import Verif.FormatProps
import Verif.AnimModel
import Verif.AnimProps
import Verif.TreeInt
import Verif.ClusterInt
import Verif.IntList
import Verif.ClusterInt2
import Verif.GaussFinite
import Verif.ClusterGauss
import Verif.ClusterIntTotal
import Verif.ClusterGaussTotal
import Verif.ClusterIntConverge
import Verif.ClusterProps8
import Verif.ClusterGaussExamples
import Verif.NlgMixModel
import Verif.NlgMixLemmas
import Verif.NlgMixProps
import Verif.NlgMixJoint
import Verif.NlgMixProps2
import Verif.NlgMixProps3
import Verif.NonLinProps4
import Verif.NlgMixExamples
import Verif.ClusterGain
import Verif.ClusterDense
import Verif.ClusterDenseTotal
import Verif.ClusterDenseRun
import Verif.ClusterDenseNew
import Verif.ClusterProps9
import Verif.ClusterDenseExamples
import Verif.ClusterAbsorb
import Verif.ClusterAgree
import Verif.ClusterLoopExample
import Verif.ClusterPosterior
import Verif.ClusterPosteriorExamples
import Verif.ConvModel
import Verif.ConvProps
import Verif.SortModel
import Verif.SortProps
import Verif.ListModel
import Verif.ListProps
import Verif.SampleLaw
import Verif.SampleSpec
import Verif.SampleModel
import Verif.SampleLemmas
import Verif.SampleProps
import Verif.SampleProps2
import Verif.MixDivModel
import Verif.MixDivLemmas
import Verif.MixDivProps
import Verif.MixDivProps2
import Verif.MixDivProps3
import Verif.NlgReadModel
import Verif.NlgReadProps
import Verif.NlgReadProps2
import Verif.ShowModel
import Verif.ShowProps
import Verif.ClusterSemi
import Verif.ClusterSemiRun
import Verif.ClusterGaussSemi
import Verif.ClusterProps10
import Verif.ClusterLinearExamples
import Verif.ClusterLinearViolation
import Verif.TableModel
import Verif.TableProps
import Verif.TableProps2
import Verif.PlotModel
import Verif.PlotProps
import Verif.PlotGaussModel
import Verif.PlotMass
import Verif.PlotGaussProps
import Verif.PlotMixProps
import Verif.TemplateModel
import Verif.TemplateProps
import Verif.Pinsker
import Verif.GainModel
import Verif.GainProps
import Verif.NlgCgModel
import Verif.NlgCgStrict
import Verif.NlgCgFacts
import Verif.NlgCgLaws
import Verif.NlgCgProps
import Verif.NlgCgProps2
import Verif.NlgCgExamples
import Verif.ClusterCongr
import Verif.MixCgModel
import Verif.MixCgLaws
import Verif.MixCgProps
import Verif.MixCgExamples
import Verif.SparseLabel
import Verif.SparseLabelKl
import Verif.SparseLabelLaws
import Verif.ClusterLabel
import Verif.ClusterPrune
import Verif.ClusterPruneExamples
import Verif.OperatorModel
import Verif.OperatorProps
import Verif.ClusterDenseMore
import Verif.ClusterGains
import Verif.ClusterGainsProps
import Verif.ClusterPruneCard
import Verif.MixCancelProps
import Verif.ClusterIrrelevant
import Verif.ClusterIrrelevantProps
import Verif.SparseEqDefaultProps
import Verif.GaussCovExistsProps
import Verif.VacuousProps
import Verif.DupProps
import Verif.LinearTemplateProps
import Verif.SparseMassProps
import Lean.Util.CollectAxioms
import Lean.Elab.Command

/-!
# Axiom check

Generated by tools/manifest.py from the claim list. The build fails if a claimed theorem depends on
anything but the three standard axioms.
-/

open Lean Elab Command

/-- Fail unless the theorem exists and depends on standard axioms only. -/
elab "assert_std_axioms " n:ident : command => do
  let nm ← liftCoreM <| realizeGlobalConstNoOverload n
  let env ← getEnv
  let some (.thmInfo _) := env.find? nm | throwError "{nm} is not a theorem"
  let axs ← liftCoreM <| collectAxioms nm
  for a in axs do
    unless a == ``propext || a == ``Classical.choice || a == ``Quot.sound do
      throwError "{nm} depends on {a}"

assert_std_axioms Verif.Sparse.C01_multiply_pointwise
assert_std_axioms Verif.Sparse.C01_multiply_prob
assert_std_axioms Verif.Sparse.C01_multiply_inconsistent
assert_std_axioms Verif.Sparse.C02_marginalize_sums
assert_std_axioms Verif.Sparse.C03_reduce_restricts
assert_std_axioms Verif.Sparse.C04_divide_pointwise
assert_std_axioms Verif.Sparse.C04_divide_default_mismatch
assert_std_axioms Verif.Sparse.C05_cancel_pointwise
assert_std_axioms Verif.Sparse.C05_cancel_empty
assert_std_axioms Verif.Sparse.C05_cancel_supported
assert_std_axioms Verif.Sparse.C05_absorb_cancel
assert_std_axioms Verif.Sparse.C06_reorder_preserves
assert_std_axioms Verif.Sparse.C07_potential_partial
assert_std_axioms Verif.Sparse.C07_potential_wrong_order
assert_std_axioms Verif.Sparse.C08_argmax_maximises
assert_std_axioms Verif.Sparse.C09_normalize
assert_std_axioms Verif.Sparse.C09_weight
assert_std_axioms Verif.Sparse.C09_normalize_empty
assert_std_axioms Verif.Sparse.C10_equals_symm
assert_std_axioms Verif.Sparse.C10_equals_sound
assert_std_axioms Verif.Sparse.C10_equals_reorder
assert_std_axioms Verif.Sparse.C11_kl_divergence
assert_std_axioms Verif.Sparse.C11_distance_from_vacuous
assert_std_axioms Verif.Sparse.C12_hash_any
assert_std_axioms Verif.Sparse.C12_hash_divide
assert_std_axioms Verif.Sparse.C12_hash_marginalize
assert_std_axioms Verif.Sparse.C13_multiply_partial
assert_std_axioms Verif.Sparse.C13_multiply_loses_entries
assert_std_axioms Verif.Sparse.C13_reorder_reduce_lose_default
assert_std_axioms Verif.Cat.C14_table
assert_std_axioms Verif.Cat.C14_table_nonneg
assert_std_axioms Verif.Cat.C14_table_range
assert_std_axioms Verif.Cat.C15_multiply_pointwise
assert_std_axioms Verif.Cat.C15_multiply_prob
assert_std_axioms Verif.Cat.C15_multiply_errors
assert_std_axioms Verif.Cat.C16_divide_pointwise
assert_std_axioms Verif.Cat.C16_divide_inverts
assert_std_axioms Verif.Cat.C16_divide_foreign
assert_std_axioms Verif.Cat.C17_cancel_partial
assert_std_axioms Verif.Cat.C17_cancel_suffix
assert_std_axioms Verif.Cat.C17_cancel_raises_index
assert_std_axioms Verif.Cat.C17_cancel_raises_value
assert_std_axioms Verif.Cat.C17_cancel_misaligned
assert_std_axioms Verif.Cat.C18_marginalize_partial
assert_std_axioms Verif.Cat.C18_marginalize_wrong_order
assert_std_axioms Verif.Cat.C18_marginalize_hash_dependent
assert_std_axioms Verif.Cat.C18_marginalize_card_one
assert_std_axioms Verif.Cat.C19_reduce_restricts
assert_std_axioms Verif.Cat.C19_reduce_nat
assert_std_axioms Verif.Cat.C19_reduce_range
assert_std_axioms Verif.Cat.C20_reorder_preserves
assert_std_axioms Verif.Cat.C21_potential
assert_std_axioms Verif.Cat.C22_argmax_first
assert_std_axioms Verif.Cat.C23_normalize
assert_std_axioms Verif.Cat.C24_kl_divergence
assert_std_axioms Verif.Cat.C24_distance_from_vacuous
assert_std_axioms Verif.Cat.C25_equals_partial
assert_std_axioms Verif.Cat.C25_equals_reorder
assert_std_axioms Verif.Cat.C25_equals_not_symmetric
assert_std_axioms Verif.Cat.C25_equals_broadcasts
assert_std_axioms Verif.Cat.C26_multiply
assert_std_axioms Verif.Cat.C26_divide
assert_std_axioms Verif.Cat.C26_reorder
assert_std_axioms Verif.Cat.C26_reduce_partial
assert_std_axioms Verif.Cat.C26_normalize
assert_std_axioms Verif.Cat.C26_reduce_raises
assert_std_axioms Verif.Cat.C27_names_kept
assert_std_axioms Verif.Cat.C27_names_multiply
assert_std_axioms Verif.Cat.C27_names_inconsistent
assert_std_axioms Verif.CG.C42_ids_unique
assert_std_axioms Verif.CG.C42_no_id_error
assert_std_axioms Verif.CG.C43_absorb_partitions
assert_std_axioms Verif.CG.C43_absorb_product
assert_std_axioms Verif.CG.C44_evidence
assert_std_axioms Verif.CG.C45_running_intersection
assert_std_axioms Verif.CG.C46_sepsets
assert_std_axioms Verif.CG.C47_budget
assert_std_axioms Verif.CG.C47_single
assert_std_axioms Verif.CG.C47_total
assert_std_axioms Verif.CG.C48_early_stop
assert_std_axioms Verif.CG.C49_greedy
assert_std_axioms Verif.CG.C49_gain_fresh
assert_std_axioms Verif.CG.C50_belief
assert_std_axioms Verif.CG.C50_zeros_stay
assert_std_axioms Verif.CG.C51_joint_partial
assert_std_axioms Verif.CG.C51_unavailable
assert_std_axioms Verif.CG.C52_exact_marginals
assert_std_axioms Verif.CG.C52_sparse
assert_std_axioms Verif.CG.C52_sparse_process
assert_std_axioms Verif.CG.C52_single_cluster
assert_std_axioms Verif.CG.C52_tree_inference
assert_std_axioms Verif.CG.C53_get_marginal
assert_std_axioms Verif.CG.C54_process_again_partial
assert_std_axioms Verif.CG.C54_single_cluster_violation
assert_std_axioms Verif.CG.C55_reject
assert_std_axioms Verif.CG.C55_accept
assert_std_axioms Verif.CG.C55_delivery
assert_std_axioms Verif.CG.C78_inference_never_fails
assert_std_axioms Verif.CG.C79_tree_converges
assert_std_axioms Verif.CG.C79_positive_tree_converges
assert_std_axioms Verif.Gauss.C28_forms
assert_std_axioms Verif.Gauss.C29_weight
assert_std_axioms Verif.Gauss.C29_not_vacuous
assert_std_axioms Verif.Gauss.C30_multiply
assert_std_axioms Verif.Gauss.C31_divide
assert_std_axioms Verif.Gauss.C31_multiply_divide
assert_std_axioms Verif.Gauss.C32_marginalize_partial
assert_std_axioms Verif.Gauss.C32_posDef
assert_std_axioms Verif.Gauss.C32_flagged
assert_std_axioms Verif.Gauss.C33_reduce_partial
assert_std_axioms Verif.Gauss.C33_all_observed
assert_std_axioms Verif.Gauss.C34_reorder_partial
assert_std_axioms Verif.Gauss.C34_repeated_name
assert_std_axioms Verif.Gauss.C35_normalize
assert_std_axioms Verif.Gauss.C36_kl_partial
assert_std_axioms Verif.Gauss.C36_order
assert_std_axioms Verif.Gauss.C37_equals_partial
assert_std_axioms Verif.Gauss.C37_reorders
assert_std_axioms Verif.Gauss.C38_forms_agree
assert_std_axioms Verif.Gauss.C38_accessors
assert_std_axioms Verif.Gauss.C38_copy_weight
assert_std_axioms Verif.Gauss.C39_vacuous_partial
assert_std_axioms Verif.Gauss.C39_not_constant
assert_std_axioms Verif.Gauss.C39_constant_lost
assert_std_axioms Verif.Gauss.C40_linear_partial
assert_std_axioms Verif.Gauss.C40_not_square
assert_std_axioms Verif.Gauss.C41_template_partial
assert_std_axioms Verif.Gauss.C41_template_marginal
assert_std_axioms Verif.Gauss.C41_linear_template
assert_std_axioms Verif.Gauss.C62_split_partial
assert_std_axioms Verif.Gauss.C62_weight
assert_std_axioms Verif.Gauss.C73_matrix
assert_std_axioms Verif.Gauss.C73_vector
assert_std_axioms Verif.Gauss.C73_shape
assert_std_axioms Verif.Gauss.C80_equals
assert_std_axioms Verif.Mix.C56_multiply
assert_std_axioms Verif.Mix.C56_multiply_gaussian
assert_std_axioms Verif.Mix.make_isMix
assert_std_axioms Verif.Mix.C57_reduce_partial
assert_std_axioms Verif.Mix.C57_marginalize_partial
assert_std_axioms Verif.Mix.C57_all_observed
assert_std_axioms Verif.Mix.C58_weight
assert_std_axioms Verif.Mix.C58_normalize
assert_std_axioms Verif.Mix.C59_moment_match
assert_std_axioms Verif.Mix.C60_equals_partial
assert_std_axioms Verif.Mix.C60_order
assert_std_axioms Verif.Mix.C60_asymmetric
assert_std_axioms Verif.Mix.C61_divide_gaussian
assert_std_axioms Verif.Mix.C61_divide_single
assert_std_axioms Verif.Mix.C61_multiply_divide
assert_std_axioms Verif.Mix.C61_divide_matched
assert_std_axioms Verif.Mix.C81_equals_partial
assert_std_axioms Verif.Mix.C81_equals_changes_argument
assert_std_axioms Verif.Mix.C82_copy_partial
assert_std_axioms Verif.Mix.C82_copy_cancel_method
assert_std_axioms Verif.Mix.C83_from_sklearn
assert_std_axioms Verif.Fact.C63_joint
assert_std_axioms Verif.Fact.C63_multiply_partial
assert_std_axioms Verif.Fact.C63_new_variable
assert_std_axioms Verif.Fact.C64_divide_partial
assert_std_axioms Verif.Fact.C64_not_exact
assert_std_axioms Verif.Fact.C65_marginalize_partial
assert_std_axioms Verif.Fact.C65_proper
assert_std_axioms Verif.Fact.C65_one_variable
assert_std_axioms Verif.Fact.C65_raises
assert_std_axioms Verif.Fact.C65_chain
assert_std_axioms Verif.Fact.C65_unlisted
assert_std_axioms Verif.Fact.C66_reduce_partial
assert_std_axioms Verif.Fact.C66_raises
assert_std_axioms Verif.Fact.C67_equals_partial
assert_std_axioms Verif.Fact.C67_answers
assert_std_axioms Verif.Fact.C67_gaussian
assert_std_axioms Verif.Fact.C67_repeated_scope
assert_std_axioms Verif.Fact.C68_normalize_partial
assert_std_axioms Verif.Fact.C68_raises
assert_std_axioms Verif.Sigma.C69_sigma_points
assert_std_axioms Verif.Sigma.C69_raises
assert_std_axioms Verif.Sigma.C69_unique
assert_std_axioms Verif.Sigma.C69_list
assert_std_axioms Verif.Sigma.C70_affine
assert_std_axioms Verif.Sigma.C70_untransformed
assert_std_axioms Verif.NLG.C71_multiply
assert_std_axioms Verif.NLG.C71_divide
assert_std_axioms Verif.NLG.C71_undo_conditional
assert_std_axioms Verif.NLG.C71_undo_conditioning_partial
assert_std_axioms Verif.NLG.C71_joint
assert_std_axioms Verif.NLG.C71_vacuous
assert_std_axioms Verif.NLG.C71_undo_raises
assert_std_axioms Verif.NLG.C72_vacuous
assert_std_axioms Verif.NLG.C72_computed_partial
assert_std_axioms Verif.NLG.C72_all_observed
assert_std_axioms Verif.NLG.C72_factor_observed
assert_std_axioms Verif.NLG.C84_affine
assert_std_axioms Verif.NLG.C85_reduce
assert_std_axioms Verif.NLG.C86_marginalize
assert_std_axioms Verif.NLG.C86_update_marginal
assert_std_axioms Verif.NLG.C86_drop_raises
assert_std_axioms Verif.NLG.C86_ignores_evidence
assert_std_axioms Verif.Utils.C74_remove_duplicate_values_partial
assert_std_axioms Verif.Utils.C74_exact
assert_std_axioms Verif.Utils.C74_empty
assert_std_axioms Verif.Utils.C74_negative
assert_std_axioms Verif.Utils.C75_subset_evidence
assert_std_axioms Verif.Fmt.C76_formattable
assert_std_axioms Verif.Fmt.C76_formattable_conditional
assert_std_axioms Verif.Fmt.C76_format
assert_std_axioms Verif.Fmt.C76_plain
assert_std_axioms Verif.Fmt.C76_raises
assert_std_axioms Verif.Fmt.C76_no_templates
assert_std_axioms Verif.Fmt.C76_constructor
assert_std_axioms Verif.Anim.C77_sepset_symmetric
assert_std_axioms Verif.Anim.C77_sepset_injective_partial
assert_std_axioms Verif.Anim.C77_sepset_clash
assert_std_axioms Verif.Anim.C77_sound_partial
assert_std_axioms Verif.Anim.C77_joined
assert_std_axioms Verif.Anim.C77_super_missing
assert_std_axioms Verif.Anim.C77_incomplete
assert_std_axioms Verif.CG.C87_gaussian_exact
assert_std_axioms Verif.CG.C87_gaussian_tree_inference
assert_std_axioms Verif.CG.C88_gaussian_never_fails
assert_std_axioms Verif.CG.C89_gaussian_tree_converges
assert_std_axioms Verif.CG.C89_gaussian_exact_convergence
assert_std_axioms Verif.NlgMix.C90_multiply_partial
assert_std_axioms Verif.NlgMix.C90_scope
assert_std_axioms Verif.NlgMix.C90_split_partial
assert_std_axioms Verif.NlgMix.C90_violated
assert_std_axioms Verif.NlgMix.C90_gaussian_raises
assert_std_axioms Verif.NlgMix.C91_joint_partial
assert_std_axioms Verif.NlgMix.C91_order
assert_std_axioms Verif.NlgMix.C92_reduce
assert_std_axioms Verif.NlgMix.C93_joint_marginal_partial
assert_std_axioms Verif.NlgMix.C93_never_returns
assert_std_axioms Verif.NlgMix.C93_type_error
assert_std_axioms Verif.NlgMix.C94_divide_gaussian
assert_std_axioms Verif.NlgMix.C94_divide_mixture
assert_std_axioms Verif.NlgMix.C94_divide_returns
assert_std_axioms Verif.NlgMix.C95_copy_partial
assert_std_axioms Verif.NlgMix.C95_flag
assert_std_axioms Verif.NlgMix.C95_violated
assert_std_axioms Verif.NLG.C96_weight
assert_std_axioms Verif.CG.C97_dense_exact_partial
assert_std_axioms Verif.CG.C97_dense_tree_inference_partial
assert_std_axioms Verif.CG.C97_joint_query_wrong
assert_std_axioms Verif.CG.C97_hash_dependent
assert_std_axioms Verif.CG.C98_dense_never_fails_partial
assert_std_axioms Verif.CG.C98_dense_step
assert_std_axioms Verif.CG.C98_zero_raises
assert_std_axioms Verif.CG.C99_dense_tree_converges_partial
assert_std_axioms Verif.CG.C100_not_nested_partial
assert_std_axioms Verif.CG.C100_chain
assert_std_axioms Verif.CG.C100_equal
assert_std_axioms Verif.CG.C101_sparse_consistent
assert_std_axioms Verif.CG.C101_gaussian_consistent
assert_std_axioms Verif.CG.C102_posterior
assert_std_axioms Verif.CG.C102_order_independent
assert_std_axioms Verif.CG.C102_gaussian_posterior
assert_std_axioms Verif.CG.C102_gaussian_order_independent
assert_std_axioms Verif.Conv.C103_matrix
assert_std_axioms Verif.Conv.C103_matrix_sound
assert_std_axioms Verif.Conv.C103_vector
assert_std_axioms Verif.Conv.C103_scalar
assert_std_axioms Verif.Conv.C103_gaussian_cov_partial
assert_std_axioms Verif.Conv.C103_gaussian_can_partial
assert_std_axioms Verif.Conv.C103_gaussian_sound
assert_std_axioms Verif.Conv.C103_vector_violated
assert_std_axioms Verif.Conv.C103_scalar_violated
assert_std_axioms Verif.Conv.C103_error_violated
assert_std_axioms Verif.Conv.C104_single_name_partial
assert_std_axioms Verif.Conv.C104_single_name_violated
assert_std_axioms Verif.Conv.C104_single_name_witness
assert_std_axioms Verif.CG.C105_sort_almost_sorted_partial
assert_std_axioms Verif.CG.C105_short
assert_std_axioms Verif.CG.C105_needs_condition
assert_std_axioms Verif.C106_dense
assert_std_axioms Verif.C106_sparse
assert_std_axioms Verif.C106_agree
assert_std_axioms Verif.C106_sum
assert_std_axioms Verif.C107_named_rows_partial
assert_std_axioms Verif.C107_names_violated
assert_std_axioms Verif.Sampling.C108_gaussian
assert_std_axioms Verif.Sampling.C108_raises
assert_std_axioms Verif.Sampling.C108_mixture
assert_std_axioms Verif.Sampling.C108_none
assert_std_axioms Verif.Sampling.C109_nonlinear_partial
assert_std_axioms Verif.Sampling.C109_mixture_violated
assert_std_axioms Verif.Sampling.C109_mixture_rows
assert_std_axioms Verif.Sampling.C109_order
assert_std_axioms Verif.Mix.C110_equal_components_partial
assert_std_axioms Verif.Mix.C110_formula
assert_std_axioms Verif.Mix.C110_equal_components_violated
assert_std_axioms Verif.Mix.C110_witness
assert_std_axioms Verif.Mix.C110_not_normalisable
assert_std_axioms Verif.Mix.C111_shape_partial
assert_std_axioms Verif.Mix.C111_scale_violated
assert_std_axioms Verif.Mix.C111_raises
assert_std_axioms Verif.Mix.C111_unique_modes
assert_std_axioms Verif.Mix.C112_best
assert_std_axioms Verif.Mix.C112_global
assert_std_axioms Verif.Mix.C112_means
assert_std_axioms Verif.Mix.C112_fails
assert_std_axioms Verif.NLG.C113_parameters
assert_std_axioms Verif.NLG.C113_equals_partial
assert_std_axioms Verif.NLG.C113_fresh
assert_std_axioms Verif.NLG.C113_equals_violated
assert_std_axioms Verif.NLG.C113_nonlinear
assert_std_axioms Verif.Gauss.C114_repr_partial
assert_std_axioms Verif.Gauss.C114_show
assert_std_axioms Verif.Gauss.C114_vacuous
assert_std_axioms Verif.Gauss.C114_no_covariance
assert_std_axioms Verif.Gauss.C115_random
assert_std_axioms Verif.Gauss.C115_errors
assert_std_axioms Verif.CG.C116_linear_gaussian_never_fails_partial
assert_std_axioms Verif.CG.C116_two_parents_raise
assert_std_axioms Verif.CG.C116_kl_raises
assert_std_axioms Verif.CG.C116_messages_raise
assert_std_axioms Verif.CG.C117_linear_gaussian_converges
assert_std_axioms Verif.CG.C117_exact_convergence
assert_std_axioms Verif.CG.C118_linear_gaussian_exact
assert_std_axioms Verif.C119_dense_partial
assert_std_axioms Verif.C119_sparse_partial
assert_std_axioms Verif.C119_rows_differ
assert_std_axioms Verif.C119_long_index_violated
assert_std_axioms Verif.C119_no_variables_violated
assert_std_axioms Verif.Plot.C120_convergence_partial
assert_std_axioms Verif.Plot.C120_no_finite
assert_std_axioms Verif.Plot.C120_zero_violated
assert_std_axioms Verif.Plot.C120_log_violated
assert_std_axioms Verif.Plot.C121_gaussian_line
assert_std_axioms Verif.Plot.C121_gaussian_surface_partial
assert_std_axioms Verif.Plot.C121_mixture_line_partial
assert_std_axioms Verif.Plot.C121_mixture_surface_partial
assert_std_axioms Verif.Plot.C121_mixture_log
assert_std_axioms Verif.Plot.C121_mixture_log_violated
assert_std_axioms Verif.Plot.C121_vacuous_violated
assert_std_axioms Verif.Plot.C121_one_limit_ignored
assert_std_axioms Verif.Plot.C121_other_dimensions
assert_std_axioms Verif.Fmt.C122_categorical_table
assert_std_axioms Verif.Fmt.C122_categorical_tensor
assert_std_axioms Verif.Fmt.C122_sparse
assert_std_axioms Verif.Fmt.C122_gaussian_partial
assert_std_axioms Verif.Fmt.C122_nonlinear
assert_std_axioms Verif.Fmt.C122_instances
assert_std_axioms Verif.Fmt.C122_clash
assert_std_axioms Verif.Fmt.C122_clash_nonlinear
assert_std_axioms Verif.Fmt.C122_missing
assert_std_axioms Verif.Fmt.C122_given
assert_std_axioms Verif.Fmt.C122_nothing
assert_std_axioms Verif.Fmt.C122_conditional_ignored
assert_std_axioms Verif.Cat.C123_dense
assert_std_axioms Verif.Cat.C123_dense_vacuous
assert_std_axioms Verif.Sparse.C123_sparse
assert_std_axioms Verif.Sparse.C123_sparse_vacuous
assert_std_axioms Verif.CG.C123_messages
assert_std_axioms Verif.CG.C123_process
assert_std_axioms Verif.CG.C123_dense_messages
assert_std_axioms Verif.Gauss.C123_gauss_partial
assert_std_axioms Verif.Gauss.C123_gauss_violated
assert_std_axioms Verif.CG.C124_exact_partial
assert_std_axioms Verif.CG.C124_swallowed
assert_std_axioms Verif.CG.C124_swallowed_witness
assert_std_axioms Verif.CG.C124_inputs_observed
assert_std_axioms Verif.CG.C124_flat
assert_std_axioms Verif.CG.C124_flat_witness
assert_std_axioms Verif.CG.C125_exact_partial
assert_std_axioms Verif.CG.C125_alone
assert_std_axioms Verif.CG.C125_overlap
assert_std_axioms Verif.CG.C125_mixture_and_gaussian
assert_std_axioms Verif.CG.C125_violated_overlap
assert_std_axioms Verif.CG.C125_violated_overlap_witness
assert_std_axioms Verif.CG.C125_violated_inside
assert_std_axioms Verif.CG.C125_violated_inside_witness
assert_std_axioms Verif.CG.C126_support
assert_std_axioms Verif.CG.C126_sparse
assert_std_axioms Verif.CG.C126_solved
assert_std_axioms Verif.CG.C126_dense_partial
assert_std_axioms Verif.Sparse.C126_cardinality_needed
assert_std_axioms Verif.Opr.C127_mul_sparse
assert_std_axioms Verif.Opr.C127_mul_dense
assert_std_axioms Verif.Opr.C127_mul_gauss
assert_std_axioms Verif.Opr.C127_mul_mix
assert_std_axioms Verif.Opr.C127_mul_fact
assert_std_axioms Verif.Opr.C127_ne
assert_std_axioms Verif.Opr.C127_division_violated
assert_std_axioms Verif.Opr.C127_division_witness
assert_std_axioms Verif.Opr.C127_foreign_violated
assert_std_axioms Verif.Opr.C127_asymmetric
assert_std_axioms Verif.Opr.C128_equals
assert_std_axioms Verif.Opr.C128_copy
assert_std_axioms Verif.CG.C129_curves
assert_std_axioms Verif.CG.C129_two_clusters
assert_std_axioms Verif.CG.C129_axis_violated
assert_std_axioms Verif.CG.C129_axis_witness
assert_std_axioms Verif.Mix.C130_constructor_partial
assert_std_axioms Verif.Mix.C130_operands_partial
assert_std_axioms Verif.Mix.C130_violated
assert_std_axioms Verif.Mix.C130_witness
assert_std_axioms Verif.CG.C131_sparse_partial
assert_std_axioms Verif.CG.C131_dense_partial
assert_std_axioms Verif.CG.C131_gaussian_partial
assert_std_axioms Verif.CG.C131_sparse_single_raises
assert_std_axioms Verif.CG.C131_gaussian_single_raises
assert_std_axioms Verif.CG.C131_violated
assert_std_axioms Verif.Sparse.C132_sound_partial
assert_std_axioms Verif.Sparse.C132_complete_partial
assert_std_axioms Verif.Sparse.C132_order_unsound
assert_std_axioms Verif.Sparse.C132_order_asymmetric
assert_std_axioms Verif.Sparse.C132_default_violated
assert_std_axioms Verif.Gauss.C133_cov_exists
assert_std_axioms Verif.Gauss.C133_necessary
assert_std_axioms Verif.Gauss.C133_sufficient_partial
assert_std_axioms Verif.Gauss.C133_indefinite
assert_std_axioms Verif.Mix.C134_mixture_partial
assert_std_axioms Verif.Fact.C134_factorised_partial
assert_std_axioms Verif.Fact.C134_mixed_raises
assert_std_axioms Verif.Sparse.C135_weight_gap
assert_std_axioms Verif.Sparse.C135_weight_partial
assert_std_axioms Verif.Sparse.C135_normalize_partial
