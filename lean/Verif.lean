import Verif.Model.Flt
import Verif.Model.FindResult
import Verif.Spec.Best
import Verif.Lemmas.Best
import Verif.Props.Best
import Verif.Model.MixInt
import Verif.Spec.MixInt
import Verif.Lemmas.MixInt
import Verif.Props.MixInt
import Verif.Model.Run
import Verif.Spec.Run
import Verif.Lemmas.Run
import Verif.Props.RunData
import Verif.Props.RunBest
import Verif.Props.RunCstr
import Verif.Model.Doe
import Verif.Spec.Doe
import Verif.Lemmas.Doe
import Verif.Lemmas.FullFact
import Verif.Props.Doe
import Verif.Model.Coego
import Verif.Spec.Coego
import Verif.Props.Coego
import Verif.Model.Steps
import Verif.Spec.Steps
import Verif.Props.Steps
import Verif.Model.Persist
import Verif.Props.Persist
import Verif.Model.Criteria
import Verif.Model.LogEiF64
import Verif.Spec.Criteria
import Verif.Lemmas.Gauss
import Verif.Lemmas.LogEi
import Verif.Lemmas.Criteria
import Verif.Props.Criteria
import Verif.Props.LogEiF64
import Verif.Model.Kernels
import Verif.Spec.Kernels
import Verif.Props.Kernels
import Verif.Model.Means
import Verif.Props.Means
import Verif.Model.GpUtils
import Verif.Props.GpUtils
import Verif.Model.Gp
import Verif.Spec.Gp
import Verif.Lemmas.Gp
import Verif.Lemmas.GpFit
import Verif.Props.Gp
import Verif.Model.Moe
import Verif.Spec.Moe
import Verif.Props.Moe
import Verif.Props.MoeSelect
import Verif.Props.MoeAuto
import Verif.Model.Mixture
import Verif.Spec.Mixture
import Verif.Lemmas.Mixture
import Verif.Props.Mixture
import Verif.Props.MixtureGrad
import Verif.Model.Metrics
import Verif.Spec.Metrics
import Verif.Props.Metrics
import Verif.Model.Config
import Verif.Spec.Config
import Verif.Props.Config
import Verif.Model.Tuning
import Verif.Spec.Tuning
import Verif.Props.Tuning
import Verif.Model.PyGp
import Verif.Props.PyGp
import Verif.Lemmas.KernelPsd
import Verif.Props.GpPsd
import Verif.Model.Sparse
import Verif.Spec.Sparse
import Verif.Lemmas.Sparse
import Verif.Props.Sparse
import Verif.Props.SparseFit
import Verif.Model.Surrogate
import Verif.Props.Surrogate
import Verif.Model.Result
import Verif.Spec.Result
import Verif.Props.Result
import Verif.Props.RunTrego
import Verif.Model.MixIntModel
import Verif.Props.MixIntModel
import Verif.Spec.Proposals
import Verif.Props.RunPoints
import Verif.Model.GpBlas
import Verif.Props.GpBlas
import Verif.Props.GpEquiv
import Verif.Props.TuningDim
import Verif.Model.Facade
import Verif.Props.Facade
import Verif.Props.SparseGrad
import Verif.Props.SparseGradKernels
import Verif.Model.Seeds
import Verif.Props.Seeds
import Verif.Model.Batch
import Verif.Spec.Batch
import Verif.Props.Batch
import Verif.Props.GpVars
import Verif.Props.GpFar
import Verif.Props.GpTrend
import Verif.Props.SparseEquiv
import Verif.Lemmas.KernelStrict
import Verif.Props.GpStrict
import Verif.Model.Train
import Verif.Props.Train
import Verif.Model.Propose
import Verif.Props.Propose
import Verif.Model.History
import Verif.Props.History
import Verif.Model.UserDoe
import Verif.Props.UserDoe
import Verif.Model.PySampling
import Verif.Props.PySampling
import Verif.Model.PySparse
import Verif.Props.PySparse
import Verif.Model.Save
import Verif.Props.Save
import Verif.Model.Sample
import Verif.Spec.Law
import Verif.Props.Law
import Verif.Spec.F64
import Verif.Model.F64
import Verif.Lemmas.F64
import Verif.Model.DoeF64
import Verif.Props.DoeF64
import Verif.Spec.MixIntF64
import Verif.Model.MixIntF64
import Verif.Props.MixIntF64
import Verif.Model.StepsF64
import Verif.Props.StepsF64
import Verif.Model.Ask
import Verif.Props.Ask
import Verif.Model.PyEgor
import Verif.Props.PyEgor
import Verif.Props.Continuity
import Verif.Model.SortAxis
import Verif.Props.SortAxis
import Verif.Model.Precision
import Verif.Props.Precision
import Verif.Props.Ese
import Verif.Model.Report
import Verif.Props.Report
import Verif.Model.EiF64
import Verif.Props.EiF64
import Verif.Model.Units
import Verif.Props.Units
import Verif.Model.Options
import Verif.Props.Options
import Verif.Props.KeptClusters
import Verif.Model.Quality
import Verif.Props.Quality
import Verif.Props.DoeSpace
import Verif.Props.RunExact
import Verif.Props.SparseLaw
import Verif.Props.Weight
import Verif.Props.StepsExact
import Verif.Props.SelectExact
import Verif.Props.MixIntExact
import Verif.Props.InputUnits
import Verif.Props.Unbiased
import Verif.Model.Resume
import Verif.Props.Resume
import Verif.Props.MoreData
import Verif.Props.Revisit
import Verif.Model.RunFile
import Verif.Props.RunFile
import Verif.Props.Dominance
import Verif.Props.Constrained
import Verif.Model.PofF64
import Verif.Props.PofF64
import Verif.Model.Samplers
import Verif.Props.Samplers
import Verif.Model.NormF64
import Verif.Props.NormF64
import Verif.Model.DupF64
import Verif.Props.DupF64
import Verif.Model.CstrF64
import Verif.Props.CstrF64
