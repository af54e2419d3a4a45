import Verif.Py
import Verif.Num
import Verif.Spec
import Verif.SparseModel
import Verif.PyLemmas
import Verif.SpecLemmas
import Verif.SparseLemmas
import Verif.SparseBinary
import Verif.SparseOps
import Verif.Gibbs
import Verif.SparseKl
import Verif.SparseProps
import Verif.SparseProps2
import Verif.Tensor
import Verif.CatModel
import Verif.TensorLemmas
import Verif.CatLemmas
import Verif.CatOps
import Verif.CatOps2
import Verif.CatProps
import Verif.CatProps2
import Verif.CatProps3
import Verif.CatProps4
import Verif.ClusterModel
import Verif.SumOut
import Verif.TreeExact
import Verif.ClusterBuild
import Verif.ClusterRip
import Verif.ClusterProps
import Verif.ClusterLaws
import Verif.ClusterRun
import Verif.ClusterBelief
import Verif.ClusterProps2
import Verif.ClusterProps3
import Verif.ClusterExact
import Verif.ClusterProps4
import Verif.ClusterSparse
import Verif.ClusterProps5
import Verif.ClusterTotal
import Verif.ClusterAgain
import Verif.ClusterProps6
import Verif.TreeWeight
import Verif.ClusterConverge
import Verif.ClusterProps7
import Verif.ClusterExamples
import Verif.GaussInt
import Verif.GaussModel
import Verif.GaussSpec
import Verif.GaussLemmas
import Verif.GaussOps
import Verif.GaussMarg
import Verif.GaussHist
import Verif.GaussDenote
import Verif.GaussProps
import Verif.GaussProps2
import Verif.GaussKl
import Verif.GaussProps3
import Verif.GaussProps4
import Verif.MixModel
import Verif.MixLemmas
import Verif.MixProps
import Verif.MixProps2
import Verif.MixProps3
import Verif.GaussPerm
import Verif.FactModel
import Verif.FactLemmas
import Verif.FactAgree
import Verif.FactProps
import Verif.FactProps2
import Verif.FactProps3
import Verif.FactProps6
import Verif.Fubini
import Verif.FactMarg
import Verif.FactProps4
import Verif.FactProps5
import Verif.SigmaModel
import Verif.SigmaLemmas
import Verif.SigmaProps
import Verif.NonLinModel
import Verif.NonLinLemmas
import Verif.NonLinJoint
import Verif.NonLinDensity
import Verif.NonLinState
import Verif.NonLinProps
import Verif.NonLinOps
import Verif.NonLinProps2
import Verif.NonLinProps3
import Verif.UtilsModel
import Verif.UtilsProps
import Verif.FormatModel
import Verif.FormatProps
import Verif.AnimModel
import Verif.AnimProps
import Verif.TreeInt
import Verif.ClusterInt
import Verif.IntList
import Verif.ClusterInt2
import Verif.GaussFinite
import Verif.ClusterGauss
import Verif.ClusterIntTotal
import Verif.ClusterGaussTotal
import Verif.ClusterIntConverge
import Verif.ClusterProps8
import Verif.ClusterGaussExamples
import Verif.NlgMixModel
import Verif.NlgMixLemmas
import Verif.NlgMixProps
import Verif.NlgMixJoint
import Verif.NlgMixProps2
import Verif.NlgMixProps3
import Verif.NonLinProps4
import Verif.NlgMixExamples
import Verif.ClusterGain
import Verif.ClusterDense
import Verif.ClusterDenseTotal
import Verif.ClusterDenseRun
import Verif.ClusterDenseNew
import Verif.ClusterProps9
import Verif.ClusterDenseExamples
import Verif.ClusterAbsorb
import Verif.ClusterAgree
import Verif.ClusterLoopExample
import Verif.ClusterPosterior
import Verif.ClusterPosteriorExamples
import Verif.ConvModel
import Verif.ConvProps
import Verif.SortModel
import Verif.SortProps
import Verif.ListModel
import Verif.ListProps
import Verif.SampleLaw
import Verif.SampleSpec
import Verif.SampleModel
import Verif.SampleLemmas
import Verif.SampleProps
import Verif.SampleProps2
import Verif.MixDivModel
import Verif.MixDivLemmas
import Verif.MixDivProps
import Verif.MixDivProps2
import Verif.MixDivProps3
import Verif.NlgReadModel
import Verif.NlgReadProps
import Verif.NlgReadProps2
import Verif.ShowModel
import Verif.ShowProps
import Verif.ClusterSemi
import Verif.ClusterSemiRun
import Verif.ClusterGaussSemi
import Verif.ClusterProps10
import Verif.ClusterLinearExamples
import Verif.ClusterLinearViolation
import Verif.TableModel
import Verif.TableProps
import Verif.TableProps2
import Verif.PlotModel
import Verif.PlotProps
import Verif.PlotGaussModel
import Verif.PlotMass
import Verif.PlotGaussProps
import Verif.PlotMixProps
import Verif.TemplateModel
import Verif.TemplateProps
import Verif.Pinsker
import Verif.GainModel
import Verif.GainProps
import Verif.NlgCgModel
import Verif.NlgCgStrict
import Verif.NlgCgFacts
import Verif.NlgCgLaws
import Verif.NlgCgProps
import Verif.NlgCgProps2
import Verif.NlgCgExamples
import Verif.ClusterCongr
import Verif.MixCgModel
import Verif.MixCgLaws
import Verif.MixCgProps
import Verif.MixCgExamples
import Verif.SparseLabel
import Verif.SparseLabelKl
import Verif.SparseLabelLaws
import Verif.ClusterLabel
import Verif.ClusterPrune
import Verif.ClusterPruneExamples
import Verif.OperatorModel
import Verif.OperatorProps
import Verif.ClusterDenseMore
import Verif.ClusterGains
import Verif.ClusterGainsProps
import Verif.ClusterPruneCard
import Verif.MixCancelProps
import Verif.ClusterIrrelevant
import Verif.ClusterIrrelevantProps
import Verif.SparseEqDefaultProps
import Verif.GaussCovExistsProps
import Verif.VacuousProps
import Verif.DupProps
import Verif.LinearTemplateProps
import Verif.SparseMassProps
import Verif.Axioms
