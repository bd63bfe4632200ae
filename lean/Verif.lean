import Verif.Model.Mat
import Verif.Model.Rep
import Verif.Model.Utils
import Verif.Model.Cyclic
import Verif.Model.Dihedral
import Verif.Model.Continuous
import Verif.Lemmas.Psi
import Verif.Props.Spec
import Verif.Props.GroupLaws
import Verif.Props.Irreps
import Verif.Props.Subgroups
import Verif.Props.SubgroupsCont
import Verif.Lemmas.Rep
import Verif.Lemmas.Restrict
import Verif.Props.Restriction
import Verif.Props.RestrictionCont
import Verif.Lemmas.Bdiag
import Verif.Model.Disentangle
import Verif.Lemmas.Disentangle
import Verif.Props.DirectSum
import Verif.Props.Disentangle
import Verif.Props.Regular
import Verif.Model.Induced
import Verif.Lemmas.Induced
import Verif.Lemmas.Quotient
import Verif.Props.Quotient
import Verif.Props.QuotientDihedral
import Verif.Props.InducedExists
import Verif.Model.Kernels
import Verif.Props.Offsets
import Verif.Props.KernelSpec
import Verif.Lemmas.Kernels
import Verif.Props.KernelConstraint
import Verif.Model.Steerable
import Verif.Lemmas.Steerable
import Verif.Props.Steerable
import Verif.Lemmas.KernelBasis
import Verif.Props.KernelBasis
import Verif.Model.Layout
import Verif.Model.Tensor
import Verif.Props.LayoutSpec
import Verif.Lemmas.Layout
import Verif.Props.Layout
import Verif.Props.TensorSpec
import Verif.Lemmas.Tensor
import Verif.Props.Tensor
import Verif.Props.Reorder
import Verif.Model.Expansion
import Verif.Lemmas.Expansion
import Verif.Lemmas.Forward
import Verif.Props.Expansion
import Verif.Props.ExpansionOrder
import Verif.Model.Image
import Verif.Model.Conv
import Verif.Model.Bias
import Verif.Model.R2Conv
import Verif.Props.ImageSpec
import Verif.Lemmas.Image
import Verif.Lemmas.Conv
import Verif.Lemmas.Bias
import Verif.Props.Image
import Verif.Props.Bias
import Verif.Props.Conv
import Verif.Model.TrainEval
import Verif.Props.TrainEval
import Verif.Model.FieldLoop
import Verif.Lemmas.FieldLoop
import Verif.Model.Nonlin
import Verif.Props.NonlinSpec
import Verif.Lemmas.Nonlin
import Verif.Props.Nonlin
import Verif.Lemmas.Gated
import Verif.Props.Gated
import Verif.Props.NonlinGroups
import Verif.Model.Pointwise
import Verif.Props.Pointwise
import Verif.Props.PointwiseGroups
import Verif.Props.VectorField
import Verif.Model.Invariant
import Verif.Lemmas.Invariant
import Verif.Props.Invariant
import Verif.Model.Dropout
import Verif.Props.Dropout
import Verif.Model.BatchNorm
import Verif.Lemmas.BatchNorm
import Verif.Props.BatchNorm
import Verif.Props.GNorm
import Verif.Model.Pooling
import Verif.Props.Pooling
import Verif.Props.PoolingAdaptive
import Verif.Model.Sequential
import Verif.Props.Sequential
import Verif.Model.Shapes
import Verif.Props.Shapes
import Verif.Model.Factory
import Verif.Props.Factory
import Verif.Model.SpaceRestrict
import Verif.Props.SpaceRestrict
import Verif.Model.DiffopPoly
import Verif.Model.Diffops
import Verif.Lemmas.Diffops
import Verif.Props.DiffopPoly
import Verif.Props.Diffops
import Verif.Model.FiniteDiff
import Verif.Lemmas.FiniteDiff
import Verif.Props.FiniteDiff
import Verif.Model.Caches
import Verif.Props.Caches
import Verif.Model.BandLimit
import Verif.Props.BandLimit
import Verif.Model.Upsample
import Verif.Props.Upsample
import Verif.Model.Export
import Verif.Lemmas.Export
import Verif.Props.Export
import Verif.Model.InducedNonlin
import Verif.Lemmas.InducedNonlin
import Verif.Props.InducedNonlin
import Verif.Props.InducedGated
import Verif.Model.DisentangleModule
import Verif.Props.DisentangleModule
import Verif.Props.IrrepSpec
import Verif.Lemmas.Irreducible
import Verif.Props.Irreducible
import Verif.Model.Decompose
import Verif.Lemmas.Decompose
import Verif.Lemmas.DecomposeChar
import Verif.Props.Decompose
import Verif.Model.StoredFilters
import Verif.Props.StoredFilters
import Verif.Model.Init
import Verif.Props.Init
import Verif.Props.InitDelta
import Verif.Props.InitDeltaReturns
import Verif.Model.Transposed
import Verif.Lemmas.Transposed
import Verif.Props.Transposed
import Verif.Model.Network
import Verif.Props.NetworkSpec
import Verif.Lemmas.Network
import Verif.Props.Network
import Verif.Props.CutoffSpec
import Verif.Props.Cutoff
import Verif.Props.RunningSpec
import Verif.Props.Running
import Verif.Model.R2Diffop
import Verif.Lemmas.FilterAt
import Verif.Props.R2Diffop
import Verif.Model.R2ConvInit
import Verif.Props.R2ConvInit
import Verif.Model.InducedO2
import Verif.Props.InducedO2
import Verif.Model.R2DiffopInit
import Verif.Props.R2DiffopInit
import Verif.Lemmas.Complete
import Verif.Props.BandSpec
import Verif.Props.Complete
import Verif.Lemmas.SteerableIdx
import Verif.Props.SteerableComplete
import Verif.Model.Program
import Verif.Lemmas.Program
import Verif.Props.Program
import Verif.Lemmas.DiffopComplete
import Verif.Props.DiffopComplete
import Verif.Props.R2DiffopComplete
import Verif.Model.Tags
import Verif.Lemmas.Tags
import Verif.Lemmas.TagsLib
import Verif.Lemmas.TagsGood
import Verif.Props.TagSpec
import Verif.Props.Tags
import Verif.Props.TagsCut
import Verif.Model.WideResNet
import Verif.Lemmas.WideResNet
import Verif.Lemmas.WideResNetLink
import Verif.Lemmas.WideResNetNet
import Verif.Props.ConvBuilds
import Verif.Lemmas.WideResNetBuild
import Verif.Props.WideResNet
import Verif.Props.OrthLib
import Verif.Props.WideResNetBuilds
import Verif.Props.TranslateSpec
import Verif.Lemmas.Translate
import Verif.Lemmas.TranslateNet
import Verif.Props.Translate
import Verif.Lemmas.ForwardBij
import Verif.Lemmas.OneByOne
import Verif.Props.OneByOne
import Verif.Model.StoredDiffops
import Verif.Props.StoredDiffops
import Verif.Model.Names
import Verif.Lemmas.Names
import Verif.Props.Names
import Verif.Model.SelfTest
import Verif.Lemmas.SelfTest
import Verif.Props.SelfTest
import Verif.Props.SelfTestNonlin
import Verif.Model.GaussDiff
import Verif.Props.GaussSpec
import Verif.Lemmas.GaussDiff
import Verif.Props.GaussDiff
import Verif.Props.GaussLayers
import Verif.Model.TransposedInit
import Verif.Props.TransposedInit
import Verif.Model.ExpansionEq
import Verif.Props.ExpansionEq
import Verif.Model.TutorialNet
import Verif.Props.TutorialNet
import Verif.Props.BatchSpec
import Verif.Lemmas.Batch
import Verif.Lemmas.BatchLayers
import Verif.Lemmas.BatchNet
import Verif.Props.BatchIndependence
import Verif.Model.Checkpoint
import Verif.Props.CheckpointSpec
import Verif.Lemmas.Checkpoint
import Verif.Lemmas.CheckpointLoad
import Verif.Props.Checkpoint
import Verif.Props.Independence
import Verif.Model.RepNames
import Verif.Props.RepNames
import Verif.Props.PlaneConvSpec
import Verif.Lemmas.PlaneKernel
import Verif.Props.PlaneConv
import Verif.Lemmas.Stride
import Verif.Props.Stride
import Verif.Model.Rect
import Verif.Lemmas.Rect
import Verif.Props.Rect
import Verif.Props.RectPool
import Verif.Model.Flags
import Verif.Props.Flags
import Verif.Model.TypeRep
import Verif.Props.TypeRep
import Verif.Model.Hash
import Verif.Props.Hash
import Verif.Model.NetShapes
import Verif.Props.NetShapes
import Verif.Examples.Common
import Verif.Examples.ConvLayers
import Verif.Examples.Kernels
import Verif.Examples.Diffops
import Verif.Examples.Expansions
import Verif.Examples.Algebra
import Verif.Examples.Tensors
import Verif.Examples.Misc
import Verif.Lemmas.DiffopBuilds
import Verif.Props.DiffopBuilds
import Verif.Props.TransposedBuilds
import Verif.Props.Inplace
import Verif.Props.BatchReset
import Verif.Model.BatchReset
import Verif.Examples.NetFibre
import Verif.Lemmas.NetFibre
import Verif.Model.NetTree
import Verif.Props.NetTreeSpec
import Verif.Lemmas.NetTree
import Verif.Props.NetTree
import Verif.Examples.NetTree
import Verif.Model.ConcatBuild
import Verif.Props.ConcatBuildSpec
import Verif.Lemmas.ConcatBuild
import Verif.Props.ConcatBuild
import Verif.Model.DiffopNet
import Verif.Props.DiffopNetSpec
import Verif.Props.DiffopNet
import Verif.Examples.DiffopNets
import Verif.Model.ModuleList
import Verif.Props.ModuleList
import Verif.Model.DiffopTree
import Verif.Props.DiffopTreeSpec
import Verif.Props.DiffopTree
import Verif.Examples.DiffopTree
import Verif.Examples.Supported
import Verif.Examples.Applied
import Verif.Lemmas.BatchTree
import Verif.Props.BatchTreeSpec
import Verif.Props.BatchTree
import Verif.Examples.BatchTree
import Verif.Model.ShapesMore
import Verif.Props.ShapesMore
import Verif.Props.ConcatFunction
import Verif.Props.DefaultGates
import Verif.Props.TutorialHead
import Verif.Model.DefaultTest
import Verif.Props.DefaultTest
import Verif.Examples.DefaultTest
import Verif.Props.ErrorMean
import Verif.Props.TutorialHeadBias
import Verif.Model.Tolerance
import Verif.Props.Tolerance
import Verif.Props.WideImages
import Verif.Props.TutorialImages
import Verif.Props.WideResidual
