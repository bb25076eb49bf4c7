import Verif.Heap.Props
import Verif.Math.Props
import Verif.Blocks.Props
import Verif.Varint.Props
import Verif.StreamVByte.Props
import Verif.Compression.Props
import Verif.ParallelCompression.Props
import Verif.Maps.Props
import Verif.DynMaps.Props
import Verif.CompactMap.Props
import Verif.Marker.Props
import Verif.Queue.Props
import Verif.CompactArray.Props
import Verif.Rank.Props
import Verif.PrefixSum.Props
import Verif.Partitioned.Props
import Verif.Metrics.Props
import Verif.Delta.Props
import Verif.Reduce.Props
import Verif.Permute.Props
import Verif.CsrGraph.Props
import Verif.InitialCoarsening.Props
import Verif.InitialFM.Props
import Verif.InitialPool.Props
import Verif.Isolated.Props
import Verif.Validate.Props
import Verif.Facade.Props
import Verif.Contraction.PreprocessProps
import Verif.Contraction.Props
import Verif.Subgraph.Props
import Verif.Files.Props
import Verif.Binary.Compressed
import Verif.InputCheck.Props
import Verif.FlatBip.Props
import Verif.Gains.Props
import Verif.SparseGains.Props
import Verif.FM.Props
import Verif.FM.TrackerProps
import Verif.LP.RefineProps
import Verif.LP.ClusterProps
import Verif.Balancer.Props
import Verif.Jet.Props
import Verif.Grid.Props
import Verif.Reorder.Props
import Verif.Tree.Props
import Verif.NodeBalancer.Props
import Verif.Net.Props
import Verif.Limits.Twoway
import Verif.Multilevel.Props
import Verif.Dist.Props
import Verif.Dist.CommProps
import Verif.Dist.CutProps
import Verif.Dist.JetProps
import Verif.Dist.ExtendProps
import Verif.Dist.ReplicateProps
import Verif.Dist.DistributeProps
import Verif.LP.ChunksProps
import Verif.CompactGains.Model
import Verif.CompactGains.Mem
import Verif.CompactGains.Run
import Verif.CompactGains.LayoutLemmas
import Verif.CompactGains.Props
import Verif.Dist.Contract
import Verif.Dist.ContractSpec
import Verif.Dist.ContractLists
import Verif.Dist.ContractNodes
import Verif.Dist.ContractMap
import Verif.Dist.ContractEdges
import Verif.Dist.ContractSend
import Verif.Dist.ContractGhosts
import Verif.Dist.ContractCollect
import Verif.Dist.ContractTotals
import Verif.Dist.ContractGraph
import Verif.Dist.ContractQuotient
import Verif.Dist.ContractProps
import Verif.Dist.Shift
import Verif.Dist.ShiftSpec
import Verif.Dist.ShiftFill
import Verif.Dist.ShiftLevel
import Verif.Dist.ShiftMap
import Verif.Dist.ShiftLabels
import Verif.Dist.ShiftProps
import Verif.Dist.Coloring
import Verif.Dist.ColoringSteps
import Verif.Dist.ColoringSim
import Verif.Dist.ColoringProps
import Verif.Dist.IndependentSet
import Verif.Dist.IndependentSetProps
import Verif.Dist.ColoredLP
import Verif.Dist.ColoredLPSpec
import Verif.Dist.ColoredLPCut
import Verif.Dist.ColoredLPSync
import Verif.Dist.ColoredLPFind
import Verif.Dist.ColoredLPMoves
import Verif.Dist.ColoredLPProb
import Verif.Dist.ColoredLPBest
import Verif.Dist.ColoredLPLocal
import Verif.Dist.ColoredLPRefine
import Verif.Dist.ColoredLPOrder
import Verif.Dist.ColoredLPProps
import Verif.Dist.Rearrange
import Verif.Dist.RearrangeSpec
import Verif.Dist.RearrangeLocal
import Verif.Dist.RearrangeGhosts
import Verif.Dist.RearrangeWorld
import Verif.Dist.RearrangeProps
import Verif.Dist.BatchedLP
import Verif.Dist.BatchedLPLocal
import Verif.Dist.BatchedLPMoves
import Verif.Dist.BatchedLPProps
import Verif.Dist.GlobalLP
import Verif.Dist.GlobalLPLocal
import Verif.Dist.GlobalLPRun
import Verif.Dist.GlobalLPWeight
import Verif.Dist.GlobalLPProps
import Verif.Dist.KWay
import Verif.Dist.KWaySizes
import Verif.Dist.KWaySpec
import Verif.Dist.KWayLevels
import Verif.Dist.KWayProps
import Verif.Dist.HEM
import Verif.Dist.HEMSpec
import Verif.Dist.HEMLocal
import Verif.Dist.HEMResolve
import Verif.Dist.HEMRound
import Verif.Dist.HEMProps
import Verif.Dist.HEMLP
import Verif.Dist.HEMLPSpec
import Verif.Dist.HEMLPProps
import Verif.Vcycle.Model
import Verif.Vcycle.Spec
import Verif.Vcycle.Lemmas
import Verif.Vcycle.Props
import Verif.NodeBalancer.Buckets
import Verif.NodeBalancer.BucketsSpec
import Verif.NodeBalancer.BucketsLemmas
import Verif.NodeBalancer.BucketsProps
import Verif.ClusterBalancer.Model
import Verif.ClusterBalancer.Spec
import Verif.ClusterBalancer.Lemmas
import Verif.ClusterBalancer.Props
import Verif.ClusterBalancer.Greedy
import Verif.ClusterBalancer.GreedySpec
import Verif.ClusterBalancer.GreedyLemmas
import Verif.ClusterBalancer.GreedyProps
import Verif.ClusterBalancer.Limit
import Verif.ClusterBalancer.LimitProps
import Verif.ClusterBalancer.Local
import Verif.ClusterBalancer.LocalLemmas
import Verif.ClusterBalancer.LocalProps
import Verif.ClusterBalancer.Rounds
import Verif.ClusterBalancer.RoundProps
import Verif.ClusterBalancer.Sequential
import Verif.ClusterBalancer.SequentialProps
import Verif.ClusterBalancer.Pick
import Verif.ClusterBalancer.PickProps
import Verif.ClusterBalancer.Cutoff
import Verif.ClusterBalancer.CutoffProps
