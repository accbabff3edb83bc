import Verif.Base
import Verif.Concrete
import Verif.Examples
import Verif.ExamplesApi
import Verif.Ext
import Verif.Model.Aggregation
import Verif.Model.Api
import Verif.Model.Bisectors
import Verif.Model.Connectivity
import Verif.Model.Contraction
import Verif.Model.Debug
import Verif.Model.DebugFM
import Verif.Model.DebugMore
import Verif.Model.FM
import Verif.Model.Graph
import Verif.Model.GraphValid
import Verif.Model.Grid
import Verif.Model.Multilevel
import Verif.Model.Params
import Verif.Model.Partitioning
import Verif.Model.Projection
import Verif.Model.RecursiveBisection
import Verif.Model.Subgraph
import Verif.Model.Timed
import Verif.Model.Util
import Verif.Proofs.Aggregation
import Verif.Proofs.Aggregators
import Verif.Proofs.Always
import Verif.Proofs.Api
import Verif.Proofs.BFS
import Verif.Proofs.Blocks
import Verif.Proofs.Clusters
import Verif.Proofs.ClustersCall
import Verif.Proofs.ClustersRun
import Verif.Proofs.Connectivity
import Verif.Proofs.Contraction
import Verif.Proofs.Csr
import Verif.Proofs.DebugAgg
import Verif.Proofs.DebugApi
import Verif.Proofs.DebugBis
import Verif.Proofs.DebugExtract
import Verif.Proofs.DebugFM
import Verif.Proofs.DebugLone
import Verif.Proofs.DebugMore
import Verif.Proofs.DebugRB
import Verif.Proofs.DebugSim
import Verif.Proofs.DebugStops
import Verif.Proofs.Directed
import Verif.Proofs.Ends
import Verif.Proofs.EqualHalves
import Verif.Proofs.Erase
import Verif.Proofs.EvenParts
import Verif.Proofs.Extract
import Verif.Proofs.F64
import Verif.Proofs.F64Const
import Verif.Proofs.F64Exact
import Verif.Proofs.F64Ieee
import Verif.Proofs.F64Imbalance
import Verif.Proofs.F64Laws
import Verif.Proofs.F64Target
import Verif.Proofs.F64Uniform
import Verif.Proofs.FM
import Verif.Proofs.FMPass
import Verif.Proofs.FMTrace
import Verif.Proofs.Graph
import Verif.Proofs.Greedy
import Verif.Proofs.Grid
import Verif.Proofs.GridGen
import Verif.Proofs.GridInput
import Verif.Proofs.InitTrace
import Verif.Proofs.MLTrace
import Verif.Proofs.Matcher
import Verif.Proofs.Multilevel
import Verif.Proofs.NullSafe
import Verif.Proofs.NullWeights
import Verif.Proofs.OneStep
import Verif.Proofs.PartCount
import Verif.Proofs.Partitioning
import Verif.Proofs.Projection
import Verif.Proofs.Quality
import Verif.Proofs.QualityK
import Verif.Proofs.QualityTight
import Verif.Proofs.RB
import Verif.Proofs.RBMore
import Verif.Proofs.RandomBisect
import Verif.Proofs.RunTrace
import Verif.Proofs.Scale
import Verif.Proofs.ScaleBFS
import Verif.Proofs.ScaleFM
import Verif.Proofs.ScaleML
import Verif.Proofs.ScaleRB
import Verif.Proofs.Sixteen
import Verif.Proofs.Subgraph
import Verif.Proofs.Timed
import Verif.Proofs.TwoStep
import Verif.Proofs.UnitHalves
import Verif.Proofs.UnitShares
import Verif.Proofs.UnitSmall
import Verif.Proofs.UnitWeights
import Verif.Props.P01_Graph
import Verif.Props.P02_Contraction
import Verif.Props.P07_Subgraph
import Verif.Props.P101_DebugMore
import Verif.Props.P103_Cost
import Verif.Props.P104_SmallAny
import Verif.Props.P105_Scale
import Verif.Props.P106_Three
import Verif.Props.P107_Halves
import Verif.Props.P109_Shares
import Verif.Props.P110_Keeps
import Verif.Props.P111_Times
import Verif.Props.P114_Directed
import Verif.Props.P115_Always
import Verif.Props.P116_DirectedParts
import Verif.Props.P117_Sixteen
import Verif.Props.P118_MoreCuts
import Verif.Props.P119_Matchings
import Verif.Props.P120_CutFloor
import Verif.Props.P121_LocalOpt
import Verif.Props.P122_LocalCall
import Verif.Props.P123_Connected
import Verif.Props.P124_HalfCut
import Verif.Props.P125_Clusters
import Verif.Props.P126_Clumps
import Verif.Props.P127_Reciprocal
import Verif.Props.P128_DegreeBound
import Verif.Props.P129_Limits
import Verif.Props.P12_Aggregation
import Verif.Props.P130_Splits
import Verif.Props.P17_Heaviest
import Verif.Props.P19_Partitioning
import Verif.Props.P23_Connectivity
import Verif.Props.P26_FM
import Verif.Props.P27_Uniform
import Verif.Props.P30_Multilevel
import Verif.Props.P31_Bisectors
import Verif.Props.P36_Recursive
import Verif.Props.P38_Api
import Verif.Props.P40_Api
import Verif.Props.P42_Refuted
import Verif.Props.P44_Util
import Verif.Props.P47_Grid
import Verif.Props.P48_Target
import Verif.Props.P68_Verify
import Verif.Props.P69_Valid
import Verif.Props.P70_FMTrace
import Verif.Props.P71_Greedy
import Verif.Props.P72_Hierarchy
import Verif.Props.P74_Init
import Verif.Props.P75_Call
import Verif.Props.P76_StoredCut
import Verif.Props.P78_Quality
import Verif.Props.P79_Small
import Verif.Props.P80_Eight
import Verif.Props.P81_Nonempty
import Verif.Props.P82_Erase
import Verif.Props.P85_KWay
import Verif.Props.P86_Params
import Verif.Props.P89_NullSafe
import Verif.Props.P91_GridSize
import Verif.Props.P92_SelfLoop
import Verif.Props.P93_AnyInput
import Verif.Props.P94_Scarce
import Verif.Props.P95_DebugFM
import Verif.Props.P96_Debug
import Verif.Props.P99_DebugSub
import Verif.RepoTests
import Verif.Spec
import Verif.SpecAgg
import Verif.SpecApi
import Verif.SpecBisect
import Verif.SpecConn
import Verif.SpecCsr
import Verif.SpecDebug
import Verif.SpecFM
import Verif.SpecFP
import Verif.SpecGrid
import Verif.SpecIeee
import Verif.SpecInit
import Verif.SpecML
import Verif.SpecMatch
import Verif.SpecPart
import Verif.SpecRB
import Verif.SpecRun
import Verif.SpecScale
import Verif.SpecSize
import Verif.SpecSub
import Verif.SpecTarget
import Verif.SpecTime
import Verif.SpecUtil
