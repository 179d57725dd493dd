import Verif.Operator
import Verif.OperatorProps
import Verif.MergeDiff
import Verif.MergeDiffProps
import Verif.LocalUpdate
import Verif.LocalUpdateProps
import Verif.CombSort
import Verif.CombSortProps
import Verif.PermSign
import Verif.PermSignProps
import Verif.FastUpdate
import Verif.FastUpdateProps
import Verif.Clustering
import Verif.ClusteringProps
import Verif.ResizableMatrix
import Verif.ResizableMatrixProps
import Verif.SlidingWindow
import Verif.SlidingWindowProps
import Verif.LazyTrace
import Verif.LazyTraceProps
import Verif.MeasCorrelation
import Verif.MeasCorrelationProps
import Verif.WangLandau
import Verif.WangLandauProps
import Verif.Fermion
import Verif.FermionProps
import Verif.Sectors
import Verif.SectorsProps
import Verif.Hyb
import Verif.HybProps
import Verif.Util
import Verif.UtilProps
import Verif.Legendre
import Verif.LegendreProps
import Verif.Selection
import Verif.SelectionProps
import Verif.Histogram
import Verif.HistogramProps
import Verif.Checks
import Verif.ChecksProps
import Verif.TwoSetView
import Verif.TwoSetViewProps
import Verif.Worm
import Verif.WormProps
import Verif.Chain
import Verif.ChainProps
import Verif.TimeDet
import Verif.GlobalUpdate
import Verif.GlobalUpdateProps
import Verif.DetMatrix
import Verif.DetMatrixSpec
import Verif.DetMatrixLemmas
import Verif.DetMatrixCorrect
import Verif.DetMatrixProps
import Verif.Partitioned
import Verif.PartitionedSpec
import Verif.PartitionedLemmas
import Verif.PartitionedDet
import Verif.PartitionedCorrect
import Verif.PartitionedProps
import Verif.Proposal
import Verif.ProposalLemmas
import Verif.ProposalProps
import Verif.ShiftMove
import Verif.ShiftMoveProps
import Verif.WormMove
import Verif.WormMoveLemmas
import Verif.WormMoveProps
import Verif.GMeas
import Verif.GMeasLemmas
import Verif.GMeasProps
import Verif.Postprocess
import Verif.TailProps
import Verif.RotationProps
import Verif.WideScalar
import Verif.WideScalarProps
import Verif.Mpi
import Verif.MpiProps
import Verif.EigenBasis
import Verif.EigenBasisLemmas
import Verif.EigenBasisProps
import Verif.TransInv
import Verif.TransInvProps
import Verif.TraceBound
import Verif.TraceBoundLemmas
import Verif.TraceBoundProps
import Verif.Simulation
import Verif.SimulationProps
import Verif.SimulationCode
import Verif.SimulationCodeProps
import Verif.Sampling
import Verif.SamplingProps
import Verif.SamplingRunProps
import Verif.SamplingMovesProps
import Verif.SamplingWormProps
import Verif.SamplingSweep
import Verif.SamplingSweepProps
import Verif.StaticMeas
import Verif.StaticMeasProps
import Verif.Removal
import Verif.RemovalProps
import Verif.TwoTimeG2
import Verif.TwoTimeG2Lemmas
import Verif.TwoTimeG2Props
import Verif.TwoTimeG2MeanProps
import Verif.SamplingGlobal
import Verif.SamplingGlobalLemmas
import Verif.SamplingGlobalProps
import Verif.SamplingLoopProps
import Verif.SamplingSymProps
import Verif.WormNorm
import Verif.WormNormProps
import Verif.WormNormMeanProps
import Verif.GMeasCode
import Verif.GMeasMeanLemmas
import Verif.GMeasExchLemmas
import Verif.GMeasBlockLemmas
import Verif.GMeasHeatLemmas
import Verif.GMeasStateLemmas
import Verif.GMeasMeanProps
import Verif.GMeasMeanExamples
import Verif.ZMeas
import Verif.ZMeasLemmas
import Verif.ZMeasMeanProps
import Verif.ZMeasMeanExamples
import Verif.OrderHistProps
import Verif.CarCheck
import Verif.CarCheckProps
import Verif.ModelInput
import Verif.ModelInputProps
import Verif.NNCorr
import Verif.NNCorrProps
import Verif.GMeasLegendre
import Verif.GMeasLegendreProps
import Verif.WormMoverBiasProps
import Verif.WormTables
import Verif.WormTablesProps
import Verif.Observables
import Verif.ObservablesProps
import Verif.Adapt
import Verif.AdaptProps
import Verif.FastUpdateIdx
import Verif.FastUpdateIdxLemmas
import Verif.FastUpdateIdxProps
import Verif.Sanity
import Verif.SanityProps
import Verif.ContIns
import Verif.ContInsLemmas
import Verif.ContInsDraws
import Verif.ContInsSym
import Verif.ContInsRem
import Verif.ContInsFlow
import Verif.ContInsProps
import Verif.SamplingTourProps
import Verif.GMeasCutoffProps
import Verif.ObservablesCondProps
import Verif.PairUtil
import Verif.PairUtilProps
import Verif.ContShift
import Verif.ContShiftLemmas
import Verif.ContShiftDraws
import Verif.ContShiftProps
import Verif.ContRun
import Verif.ContRunLemmas
import Verif.ContRunProps
import Verif.ContWorm
import Verif.ContWormFlow
import Verif.ContWormDraws
import Verif.ContWormHyb
import Verif.ContWormIns
import Verif.ContWormBal
import Verif.ContWormSwap
import Verif.ContWormProps
import Verif.DetCheck
import Verif.DetCheckLemmas
import Verif.DetCheckProps
import Verif.ContSweepProps
import Verif.ContCodeLemmas
import Verif.ContCodeProps
import Verif.ContCodeFinite
import Verif.ContCodeAccept
import Verif.ContCodePair
import Verif.ContCodeMoves
import Verif.ContCodeStates
import Verif.ContCodeWorm
import Verif.ContCodeIns
import Verif.ContCodeGlobal
import Verif.ContCodeRun
import Verif.ContCodeHyb
import Verif.ContCodeLoop
import Verif.ContSigned
import Verif.ContMeanProps
import Verif.ContAtomProps
import Verif.ContCorrProps
import Verif.ContDensProps
import Verif.ContOrderProps
import Verif.ContFidelityProps
import Verif.ContFidelityLogProps
import Verif.ContEqualTimeProps
import Verif.ContRemovalProps
import Verif.EqTimeInput
import Verif.EqTimeInputProps
