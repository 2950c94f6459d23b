import Verif.Graph.Props
import Verif.Node.Props
import Verif.Flow.ContainerProps
import Verif.Flow.ExecProps
import Verif.Flow.TrainProps
import Verif.Hinet.SwitchboardProps
import Verif.Hinet.GeometryProps
import Verif.Hinet.RhombProps
import Verif.Hinet.LayerProps
import Verif.Hinet.LayerInverse
import Verif.Hinet.CloneProps
import Verif.Hinet.LayerTrainProps
import Verif.Hinet.LayerExamples
import Verif.Node.Replay
import Verif.Flow.NodeRel
import Verif.Hinet.FlowNodeProps
import Verif.Extension.Failures
import Verif.Hinet.FlowNodeDims
import Verif.Parallel.SchedExamples
import Verif.Num.CovProps
import Verif.Num.VartimeProps
import Verif.Parallel.NodeJoinProps
import Verif.Parallel.FdaProps
import Verif.Parallel.FlowTrainProps
import Verif.Parallel.FlowExecProps
import Verif.Caching.NodeInst
import Verif.Nodes.ExpansionProps
import Verif.Nodes.TimeFramesProps
import Verif.Nodes.HitParadeProps
import Verif.Nodes.CutoffProps
import Verif.Nodes.NearestProps
import Verif.Nodes.MarkovProps
import Verif.Nodes.HopfieldProps
import Verif.Nodes.PerceptronProps
import Verif.Nodes.KMeansProps
import Verif.Nodes.GaussianProps
import Verif.Online.NodeProps
import Verif.Online.FlowProps
import Verif.Online.ContainerProps
import Verif.Online.CircularProps
import Verif.Py.Dict
import Verif.Bi.Msg
import Verif.Bi.MsgLemmas
import Verif.Bi.Node
import Verif.Bi.NodeLemmas
import Verif.Bi.NodeProps
import Verif.Bi.Flow
import Verif.Bi.FlowProps
import Verif.Bi.ChunkProps
import Verif.Bi.Train
import Verif.Bi.TrainProps
import Verif.Nodes.RegressionProps
import Verif.Online.StatsProps
import Verif.Nodes.PcaOut
import Verif.Nodes.SfaOut
import Verif.Nodes.Sfa2Props
import Verif.Nodes.QuadMaxProps
import Verif.Nodes.SfaRank
import Verif.Utils.Symeig
import Verif.Utils.SymeigAlg
import Verif.Utils.SymeigProps
import Verif.Utils.SymeigSfa
import Verif.Nodes.RecExpansion
import Verif.Nodes.RecExpansionComb
import Verif.Nodes.RecExpansionFam
import Verif.Nodes.RecExpansionProps
import Verif.Nodes.RecExpansionOut
import Verif.Nodes.NeuralGas
import Verif.Nodes.NeuralGasSpec
import Verif.Nodes.NeuralGasLemmas
import Verif.Nodes.NeuralGasStep
import Verif.Nodes.NeuralGasProps
import Verif.Nodes.NeuralGasOut
import Verif.Nodes.NeuralGasSched
import Verif.Nodes.NeuralGasNg
import Verif.Bi.Layer
import Verif.Bi.LayerSpec
import Verif.Bi.LayerLemmas
import Verif.Bi.LayerProps
import Verif.Bi.LayerStop
import Verif.Bi.LayerMsg
import Verif.Bi.SwitchProps
import Verif.Bi.FlowNode
import Verif.Bi.FlowNodeProps
import Verif.Bi.Coroutine
import Verif.Bi.CoroutineProps
import Verif.Parallel.Hinet
import Verif.Parallel.HinetProps
import Verif.Parallel.HinetLaw
import Verif.Parallel.HinetFlow
import Verif.Parallel.HinetNest
import Verif.Parallel.BiClone
import Verif.Bi.Gradient
import Verif.Bi.GradientLemmas
import Verif.Bi.GradientNodes
import Verif.Bi.GradientProps
import Verif.Online.Chunks
import Verif.Online.Layer
import Verif.Online.LayerProps
import Verif.Online.LayerTheorems
import Verif.Gsfa.Model
import Verif.Gsfa.Sums
import Verif.Gsfa.Spec
import Verif.Gsfa.Props
import Verif.Gsfa.Windows
import Verif.Gsfa.WindowsOut
import Verif.Gsfa.Blocks
import Verif.Gsfa.BlocksOut
import Verif.Gsfa.Out
import Verif.Gsfa.Findings
import Verif.Nodes.Ccipca
import Verif.Nodes.CcipcaProps
import Verif.Nodes.McaProps
import Verif.Nodes.IncSfa
import Verif.Nodes.IncSfaProps
import Verif.Ica.Model
import Verif.Ica.Cubica
import Verif.Ica.Jade
import Verif.Ica.FastModel
import Verif.Ica.Fast
import Verif.Ica.NodeModel
import Verif.Ica.Node
import Verif.Rbm.Model
import Verif.Rbm.Gibbs
import Verif.Rbm.Train
import Verif.Bi.MsgJoin
import Verif.Parallel.BiFlow
import Verif.Parallel.BiFlowExec
import Verif.Parallel.BiFlowTrain
import Verif.Parallel.BiFlowSched
import Verif.Ica.Tight
import Verif.Online.FlowNode
import Verif.Online.FlowNodeLemmas
import Verif.Online.FlowNodeTrain
import Verif.Online.FlowNodeRing
import Verif.Online.FlowNodeAgree
import Verif.Online.FlowNodeStop
import Verif.Online.FlowNodeProps
import Verif.Factor.Model
import Verif.Factor.Alg
import Verif.Factor.Spec
import Verif.Factor.Stat
import Verif.Factor.Train
import Verif.Factor.Props
import Verif.Nodes.Fda
import Verif.Nodes.FdaOut
import Verif.Flow.Crash
import Verif.Flow.CrashLemmas
import Verif.Flow.CrashProps
import Verif.Nodes.Eta
import Verif.Nodes.EtaProps
import Verif.Copy.Model
import Verif.Copy.Spec
import Verif.Copy.Lemmas
import Verif.Copy.NodeCopy
import Verif.Copy.Props
import Verif.Utils.Random
import Verif.Utils.RandomProps
import Verif.Utils.Routines
import Verif.Utils.RoutinesProps
import Verif.Nodes.Nipals
import Verif.Nodes.NipalsProps
import Verif.Xsfa.Model
import Verif.Xsfa.Props
import Verif.Xsfa.Out
import Verif.Nodes.Rbf
import Verif.Nodes.RbfProps
import Verif.Nodes.Conv
import Verif.Nodes.ConvProps
import Verif.Nodes.Lle
import Verif.Nodes.LleProps
import Verif.Nodes.LleOut
import Verif.Nodes.LleEmbed
import Verif.Nodes.LleReal
import Verif.Nodes.LleMore
import Verif.Nodes.LleHess
import Verif.Nodes.LleNull
import Verif.Nodes.LleHessProps
import Verif.Nodes.LleFlat
import Verif.Isfa.Model
import Verif.Isfa.Angle
import Verif.Isfa.Loop
import Verif.Isfa.Props
import Verif.Isfa.Node
import Verif.Isfa.White
import Verif.Isfa.Two
import Verif.Isfa.Tdsep
import Verif.Isfa.Limit
import Verif.Isfa.Converge
import Verif.Nodes.QuadInv
import Verif.Utils.Reg
import Verif.Utils.RegReal
import Verif.Hinet.Factory
import Verif.Nodes.ClassifierBase
import Verif.Utils.Progress
import Verif.Utils.Introspect
import Verif.Utils.TempDir
import Verif.Utils.Config
import Verif.Nodes.Noise
import Verif.Bi.Sender
import Verif.Parallel.PP
import Verif.Parallel.PPSlaves
import Verif.Nodes.Scikits
import Verif.Bi.Autogen
import Verif.Utils.Templet
import Verif.Nodes.LibSvm
import Verif.Nodes.Shogun
import Verif.Bi.PeekIter
import Verif.Bi.Tracer
import Verif.Bi.Snapshots
import Verif.Utils.OrderedDict
import Verif.Utils.Backend
import Verif.Node.Meta
import Verif.Num.VartimeSfa
import Verif.Gsfa.IGsfa
import Verif.Gsfa.Helpers
import Verif.Parallel.DefaultFork
import Verif.Bi.FlowItems
import Verif.Gsfa.Compact
import Verif.Gsfa.Smart
import Verif.Hinet.Html
import Verif.Nodes.ScikitsNode
import Verif.Utils.Ldl
import Verif.Nodes.SfaRetry
import Verif.Nodes.SvmTrain
import Verif.Nodes.Preimage
import Verif.Node.Repr
import Verif.Nodes.IncSfaInv
import Verif.Node.Saving
import Verif.Ica.Options
import Verif.Utils.OrderedDict2
import Verif.Utils.Fixup
import Verif.Bi.Slides
import Verif.Gsfa.CompactFull
import Verif.Online.LayerDims
import Verif.Online.NodeHooks
import Verif.Online.Rng
import Verif.Online.CloneExec
import Verif.Nodes.QuadMaxEnds
import Verif.Nodes.PcaFraction
import Verif.Ica.JadeWorst
import Verif.Isfa.LimitTwo
import Verif.Utils.Setup
import Verif.Bi.LayerExec
import Verif.Online.FlowNodeUnknown
import Verif.Isfa.Outer
import Verif.Bi.TraceHtml
import Verif.Bi.TraceData
import Verif.Utils.SlideshowProps
import Verif.Isfa.Examples
import Verif.Bi.ArgsProps
import Verif.Bi.PhasesProps
import Verif.Bi.AutogenModule
import Verif.Utils.DigText
import Verif.Bi.Page
import Verif.Hinet.Xhtml
import Verif.Ica.FastDeriv
import Verif.Axioms
