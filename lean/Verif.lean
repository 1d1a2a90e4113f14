import Verif.Props.Morton
import Verif.Props.Cells
import Verif.Props.IntSort
import Verif.Props.Build
import Verif.Props.Edges
import Verif.Props.Exact
import Verif.Props.Random
import Verif.Props.HyperCells
import Verif.Props.HyperEdges
import Verif.Props.HyperExact
import Verif.Props.HyperLaw
import Verif.Props.HyperLevels
import Verif.Props.Scaling
import Verif.Props.ScalingDegree
import Verif.Props.Samplers
import Verif.Props.Radius
import Verif.Props.Output
import Verif.Props.Cli
import Verif.Props.Examples
import Verif.Props.ToolParams
import Verif.Props.ToolHrg
import Verif.Props.ToolGirg
import Verif.Props.ToolRepro
import Verif.Props.Rounding
import Verif.Spec.Race
import Verif.Model.Races
import Verif.Proofs.RaceBuild
import Verif.Proofs.RaceSort
import Verif.Proofs.RaceQueue
import Verif.Proofs.RaceQueueHB
import Verif.Props.Races
import Verif.Model.Asserts
import Verif.Model.HAsserts
import Verif.Proofs.AssertLevels
import Verif.Proofs.AssertSample
import Verif.Proofs.AssertTasks
import Verif.Proofs.AssertRun
import Verif.Proofs.AssertBuild
import Verif.Props.Asserts
import Verif.Props.HAsserts
import Verif.Spec.Inclusion
import Verif.Model.Inclusion
import Verif.Proofs.Sandwich
import Verif.Proofs.Convert
import Verif.Proofs.InclusionCount
import Verif.Props.Inclusion
import Verif.Props.InclusionPart
import Verif.Props.InclusionSingle
import Verif.Props.InclusionReturns
import Verif.Props.InclusionRange
import Verif.Props.InclusionRangeRet
import Verif.Props.InclusionRangeEx
import Verif.Model.Bench
import Verif.Model.Team
import Verif.Proofs.Counter
import Verif.Props.Bench
import Verif.Props.Team
import Verif.Spec.HRounding
import Verif.Proofs.HRoundedClear
import Verif.Props.HRounding
import Verif.Proofs.HThresholdDec
import Verif.Proofs.HRoundedBelow
import Verif.Proofs.HRoundedPoint
import Verif.Proofs.HRoundedFar
import Verif.Props.HThresholdRounding
import Verif.Proofs.HLevelSharp
import Verif.Model.BmiBench
import Verif.Proofs.BmiBench
import Verif.Props.BmiBench
import Verif.Model.BenchHyper
import Verif.Proofs.BenchHyper
import Verif.Props.BenchHyper
import Verif.Proofs.HBigDisk
import Verif.Props.HyperBig
import Verif.Model.MathBench
import Verif.Props.MathBench
import Verif.Spec.RoundedEngine
import Verif.Proofs.RoundedSamplers
import Verif.Proofs.B64Uniform
import Verif.Props.RoundedSamplers
import Verif.Model.Timer
import Verif.Proofs.Timer
import Verif.Props.Timer
import Verif.Spec.RoundedPow
import Verif.Proofs.RoundedWeights
import Verif.Proofs.B64Pow
import Verif.Props.RoundedWeights
import Verif.Model.Work
import Verif.Proofs.WorkErase
import Verif.Proofs.WorkLaw
import Verif.Proofs.WorkVisits
import Verif.Proofs.WorkExpected
import Verif.Proofs.WorkSum
import Verif.Proofs.WorkIntegral
import Verif.Props.Work
import Verif.Model.HyperWork
import Verif.Spec.HyperWork
import Verif.Proofs.HWorkErase
import Verif.Proofs.HWorkVisits
import Verif.Proofs.HWorkLevels
import Verif.Proofs.HWorkLaw
import Verif.Proofs.HWorkClose
import Verif.Proofs.HWorkSum
import Verif.Proofs.HWorkRadii
import Verif.Props.HyperWork
import Verif.Model.ScalingAborts
import Verif.Proofs.ScalingDebug
import Verif.Props.ScalingAsserts
import Verif.Spec.SampleLaw
import Verif.Proofs.NodeLaw
import Verif.Props.SampleLaw
import Verif.Props.SampleLawHyper
import Verif.Spec.Degree
import Verif.Proofs.DegreeLaw
import Verif.Props.Degree
import Verif.Spec.HypDegree
import Verif.Proofs.HypAngleLaw
import Verif.Proofs.HypConn
import Verif.Proofs.HypRadial
import Verif.Proofs.HypPair
import Verif.Proofs.HypMean
import Verif.Proofs.HypSample
import Verif.Proofs.HypPairs
import Verif.Props.HyperDegree
import Verif.Props.NodeDegree
import Verif.Props.HyperNodeDegree
import Verif.Props.Concentration
import Verif.Props.DegreeConcentration
import Verif.Proofs.HypTail
import Verif.Props.HyperDegreeConcentration
import Verif.Props.HyperSkipped
import Verif.Props.PowerLaw
import Verif.Proofs.HypPower
import Verif.Props.HyperPowerLaw
import Verif.Spec.Clustering
import Verif.Proofs.Clustering
import Verif.Props.Clustering
import Verif.Proofs.HypClustering
import Verif.Props.HyperClustering
import Verif.Proofs.JointLaw
import Verif.Props.JointLaw
import Verif.Proofs.PairwiseIndep
import Verif.Props.EdgeConcentration
import Verif.Proofs.HypClusteringT
import Verif.Proofs.UStat
import Verif.Spec.Spread
import Verif.Proofs.HypSpread
import Verif.Props.HyperEdgeConcentration
import Verif.Spec.RoundedAbove
import Verif.Proofs.RoundedAccept
import Verif.Props.Contains
import Verif.Proofs.AllNodes
import Verif.Props.AllDegrees
import Verif.Proofs.NeighbourLaw
import Verif.Proofs.NeighbourCoins
import Verif.Props.NeighbourLaw
import Verif.Props.HyperNeighbourLaw
import Verif.Proofs.Relabel
import Verif.Props.Relabel
import Verif.Spec.TotalVariation
import Verif.Proofs.TotalVariation
import Verif.Props.TotalVariation
import Verif.Props.DegreeCounts
import Verif.Props.DegreeSpread
import Verif.Props.GraphSpread
