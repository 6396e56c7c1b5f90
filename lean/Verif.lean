import Verif.Bits.Model
import Verif.Bits.Spec
import Verif.Bits.Props
import Verif.Util.HashSetProps
import Verif.Util.BijectiveMapProps
import Verif.Util.MathProps
import Verif.Util.WorklistProps
import Verif.Util.DisjointSetProps
import Verif.Rvsdg.BinaryProps
import Verif.Rvsdg.BitExprProps
import Verif.Rvsdg.GammaProps
import Verif.Llvm.LayoutProps
import Verif.Llvm.ConstProps
import Verif.Util.TarjanProps
import Verif.Rvsdg.TraverserExamples
import Verif.Rvsdg.RegionProps
import Verif.Aa.NaiveSpec
import Verif.Aa.WorklistRun
import Verif.Aa.WorklistPrec
import Verif.Aa.WorklistLeast
import Verif.Aa.WorklistTerm
import Verif.Aa.WorklistSpec
import Verif.Aa.LcdModel
import Verif.Aa.LcdSpec
import Verif.Aa.OcdModel
import Verif.Aa.OcdSpec
import Verif.Aa.SccSpec
import Verif.Aa.WorklistExample
import Verif.Aa.OvsModel
import Verif.Aa.OvsSpec
import Verif.Aa.OvsExact
import Verif.Aa.OvsExamples
import Verif.Aa.Pipeline
import Verif.Llvm.UnrollModel
import Verif.Llvm.UnrollProps
import Verif.Llvm.UnrollExamples
import Verif.Opt.CneModel
import Verif.Opt.CneCert
import Verif.Opt.CneWf
import Verif.Opt.CneInv
import Verif.Opt.CneMark
import Verif.Opt.CneMarkAll
import Verif.Opt.CneLoopFree
import Verif.Opt.CneEqual
import Verif.Opt.CneExamples
import Verif.Opt.Tree
import Verif.Opt.DneModel
import Verif.Opt.TreeLemmas
import Verif.Opt.DneSweep
import Verif.Opt.DneEval
import Verif.Opt.DneMark
import Verif.Opt.DneWf
import Verif.Opt.DneSpec
import Verif.Opt.DneMin
import Verif.Opt.DneProps
import Verif.Opt.DneExamples
import Verif.Opt.Refine
import Verif.Opt.RefineLemmas
import Verif.Opt.IvrModel
import Verif.Opt.IvrNode
import Verif.Opt.IvrCorr
import Verif.Opt.IvrProps
import Verif.Opt.IvrComplete
import Verif.Opt.IvrExamples
import Verif.Aa.LocalAaModel
import Verif.Aa.LocalAaSpec
import Verif.Aa.LocalAaProps
import Verif.Aa.LocalAaTerm
import Verif.Aa.LocalAaExamples
import Verif.Front.ConvertModel
import Verif.Front.ConvertSpec
import Verif.Front.ConvertLemmas
import Verif.Front.ConvertProps
import Verif.Front.ConvertTotal
import Verif.Front.ConvertWf
import Verif.Front.Convert
import Verif.Front.AggModel
import Verif.Front.AggSpec
import Verif.Front.AggProps
import Verif.Front.Agg
import Verif.Front.CfgModel
import Verif.Front.CfgSpec
import Verif.Front.CfgProps
import Verif.Front.SsaModel
import Verif.Front.SsaProps
import Verif.Front.Clean
import Verif.Front.RestructModel
import Verif.Front.RestructSpec
import Verif.Front.RestructDetour
import Verif.Front.RestructStage
import Verif.Front.RestructLoops
import Verif.Front.RestructBranches
import Verif.Front.RestructExtract
import Verif.Front.Restruct
import Verif.Llvm.FoldModel
import Verif.Llvm.FoldSpec
import Verif.Llvm.FoldProps
import Verif.Mem.NormModel
import Verif.Mem.NormSpec
import Verif.Mem.Sched
import Verif.Mem.Rewrite
import Verif.Mem.Core
import Verif.Mem.Replace
import Verif.Mem.NormLemmas
import Verif.Mem.NormProps
import Verif.Mem.NormStores
import Verif.Mem.NormExit
import Verif.Mem.NormExamples
import Verif.Mem.NormBarrier
import Verif.Back.DestructModel
import Verif.Back.DestructSpec
import Verif.Back.Machine
import Verif.Back.Rep
import Verif.Back.Sim
import Verif.Back.Grow
import Verif.Back.Emit
import Verif.Back.Total
import Verif.Back.Destruct
import Verif.Back.DestructExamples
import Verif.Opt.CopyModel
import Verif.Opt.Copy
import Verif.Opt.CopyProps
import Verif.Opt.ListNodes
import Verif.Opt.PullModel
import Verif.Opt.PullStep
import Verif.Opt.PullProps
import Verif.Opt.PullEnd
import Verif.Opt.PullExamples
import Verif.Opt.TreeDec
import Verif.Opt.Swap
import Verif.Opt.UnswitchModel
import Verif.Opt.UnswitchStages
import Verif.Opt.UnswitchSink
import Verif.Opt.UnswitchProps
import Verif.Opt.UnswitchExamples
import Verif.Opt.PcModel
import Verif.Opt.PcProps
import Verif.Opt.PcExamples
import Verif.Opt.HoistModel
import Verif.Opt.HoistRegion
import Verif.Opt.HoistProps
import Verif.Opt.HoistMarks
import Verif.Opt.HoistExamples
import Verif.Scev.Model
import Verif.Scev.Spec
import Verif.Scev.Fold
import Verif.Scev.Mul
import Verif.Scev.Prod
import Verif.Scev.Step
import Verif.Scev.Main
import Verif.Util.IListModel
import Verif.Util.IListSpec
import Verif.Util.IListProps
import Verif.Util.IListHistory
import Verif.Opt.InlineModel
import Verif.Opt.InlineSpec
import Verif.Opt.InlineStrip
import Verif.Opt.InlineHere
import Verif.Opt.InlineProps
import Verif.Opt.InlineExamples
import Verif.Tooling.JlcModel
import Verif.Tooling.JlcSpec
import Verif.Tooling.JlcBfs
import Verif.Tooling.JlcGraph
import Verif.Tooling.JlcProps
import Verif.Tooling.JlcExamples
import Verif.ModRef.Model
import Verif.ModRef.Spec
import Verif.ModRef.Alloca
import Verif.ModRef.Solve
import Verif.ModRef.Main
import Verif.ModRef.Sound
import Verif.ModRef.Examples
import Verif.ModRef.EncModel
import Verif.ModRef.EncSpec
import Verif.ModRef.EncProps
import Verif.ModRef.EncExamples
import Verif.Front.DomModel
import Verif.Front.DomSpec
import Verif.Front.DomOrder
import Verif.Front.DomInv
import Verif.Front.DomProps
import Verif.Front.DomExamples
import Verif.Scev.TripModel
import Verif.Scev.TripSpec
import Verif.Scev.TripProps
import Verif.Scev.TripExamples
import Verif.Opt.SvfModel
import Verif.Opt.SvfSpec
import Verif.Opt.SvfSound
import Verif.Opt.SvfSim
import Verif.Opt.SvfNodes
import Verif.Opt.SvfRun
import Verif.Opt.SvfTrace
import Verif.Opt.SvfMake
import Verif.Opt.SvfProps
import Verif.Opt.SvfExamples
import Verif.Opt.SroaModel
import Verif.Opt.SroaSpec
import Verif.Opt.SroaLeaves
import Verif.Opt.SroaSim
import Verif.Opt.SroaRun
import Verif.Opt.SroaTrace
import Verif.Opt.SroaExamples
import Verif.Util.IHashModel
import Verif.Util.IHashSpec
import Verif.Util.IHashProps
import Verif.Scev.LsrModel
import Verif.Scev.LsrSpec
import Verif.Scev.LsrInv
import Verif.Scev.LsrChain
import Verif.Scev.LsrProps
import Verif.Scev.LsrExamples
import Verif.Mem.LcsModel
import Verif.Mem.LcsSpec
import Verif.Mem.LcsProps
import Verif.Rvsdg.TracerModel
import Verif.Rvsdg.TracerSpec
import Verif.Rvsdg.TracerProps
import Verif.Rvsdg.TracerCache
import Verif.Rvsdg.TracerTheorems
import Verif.Rvsdg.TracerExamples
import Verif.Rvsdg.PredTraceModel
import Verif.Rvsdg.PredTraceSpec
import Verif.Rvsdg.PredTraceProps
import Verif.Rvsdg.PredTraceExec
import Verif.Rvsdg.PredTraceTheorems
import Verif.Rvsdg.PredTraceExamples
import Verif.Rvsdg.PredTraceCases
import Verif.Aa.PtgModel
import Verif.Aa.PtgSpec
import Verif.Aa.PtgProps
import Verif.Aa.PtgHist
import Verif.Aa.PtgQuery
import Verif.Aa.PtgGraph
import Verif.Aa.PtgBuild
import Verif.Aa.PtgTheorems
import Verif.Aa.PtgTotal
import Verif.Aa.PtgExamples
import Verif.Opt.IobeModel
import Verif.Opt.IobeSpec
import Verif.Opt.IobeProps
import Verif.Opt.IobeTheorems
import Verif.Opt.IobeExamples
import Verif.Hls.ForkModel
import Verif.Hls.ForkSpec
import Verif.Hls.ForkProps
import Verif.Hls.ForkInv
import Verif.Hls.ForkTheorems
import Verif.Hls.ForkExamples
import Verif.Hls.GammaModel
import Verif.Hls.GammaSpec
import Verif.Hls.GammaProps
import Verif.Hls.GammaTheorems
import Verif.Hls.GammaOnly
import Verif.Hls.GammaExamples
