import Verif.OMap
import Verif.GcovProps
import Verif.SourceOffsetProps
import Verif.SampleProps
import Verif.LbrProps
import Verif.MergeProps
import Verif.ElideProps
import Verif.ThrottleProps
import Verif.AddSourceProps
import Verif.AfdoMerge
import Verif.Threshold
import Verif.AddrLookup
import Verif.Scorer
import Verif.Percentile
import Verif.Lazy
import Verif.FileProvider
import Verif.Status
import Verif.Summary
import Verif.Overlap
import Verif.ByteReader
import Verif.Ranges
import Verif.SpePid
import Verif.SpeRanges
import Verif.SpeFreq
import Verif.Mapper
import Verif.InferFT
import Verif.MapperSelect
import Verif.RangeMap
import Verif.PerfMMap
import Verif.PerfAgg
import Verif.MMapSelector
import Verif.CfgBuild
import Verif.CfgBuildProps
import Verif.ForcedPath
import Verif.Chain
import Verif.ChainNodes
import Verif.ChainInit
import Verif.ChainEdges
import Verif.ChainEdgesMove
import Verif.ChainEdgesInv
import Verif.ChainScore
import Verif.ChainScoreProps
import Verif.ChainEdgesInit
import Verif.ChainGain
import Verif.ChainBuild
import Verif.ChainBuildProps
import Verif.ChainBest
import Verif.Cluster
import Verif.ClusterProps
import Verif.Layout
import Verif.LayoutAll
import Verif.Writer
import Verif.WriterText
import Verif.Scc
import Verif.SccProps
import Verif.SccTopo
import Verif.SccIncl
import Verif.Flatten
import Verif.FlattenProps
import Verif.Attribution
import Verif.Compute
import Verif.ComputeAgg
import Verif.ComputeOps
import Verif.ComputeProps
import Verif.ComputeMain
import Verif.ScorerLink
import Verif.Hybrid
import Verif.HybridProps
import Verif.LlvmProf
import Verif.LlvmRead
import Verif.LlvmProps
import Verif.LlvmSpecial
import Verif.Nested
import Verif.NestedProps
import Verif.NestedMain
import Verif.NestedTotals
import Verif.NestedEx
import Verif.DwarfLine
import Verif.DwarfLineSpec
import Verif.DwarfLineUnit
import Verif.DwarfLine5
import Verif.DwarfLineEx
import Verif.LineMap
import Verif.LineMapUnit
import Verif.LineMapEx
import Verif.Prune
import Verif.PruneExact
import Verif.RangeEntries
import Verif.InlineLookup
import Verif.InlineStack
import Verif.InlineStackEx
import Verif.MergeRanges
import Verif.DwarfInfo
import Verif.DwarfInfoSpec
import Verif.DwarfInfoUnit
import Verif.DwarfInfoEx
import Verif.InlineHandler
import Verif.InlineHandlerSpec
import Verif.InlineHandlerFn
import Verif.InlineHandlerWalk
import Verif.InlineHandlerLink
import Verif.InlineHandlerUnit
import Verif.InlineHandlerSec
import Verif.InlineHandlerMain
import Verif.InlineHandlerEx
import Verif.RngLists
import Verif.Addr2Line
import Verif.Elf
import Verif.ElfProps
import Verif.ElfSym
import Verif.ElfSymProps
import Verif.ElfSeg
import Verif.ElfEx
import Verif.ElfMore
import Verif.ElideAlias
import Verif.Alias
import Verif.Pipeline
import Verif.WorkingSet
import Verif.SymList
import Verif.Diff
import Verif.Propeller
import Verif.Prefetch
import Verif.Merger
import Verif.MergerGcov
import Verif.MergerLlvm
import Verif.PerfRead
import Verif.PerfReadProps
import Verif.Stamp
import Verif.SpeSimple
import Verif.Dwp
import Verif.DwpProps
import Verif.MapperSyms
import Verif.Sampled
import Verif.Validate
import Verif.SpeReader
import Verif.BinContent
import Verif.CfgOps
import Verif.PropCli
import Verif.PropFiles
import Verif.PropRun
import Verif.CfgProto
import Verif.LlvmLine
import Verif.CreateGcov
import Verif.CreateLlvm
import Verif.SampleMerger
import Verif.TwoLevel
import Verif.TwoLevelProg
import Verif.TwoLevelUnit
import Verif.TwoLevelEx
import Verif.DumpGcov
import Verif.DumpGcovProps
import Verif.DumpGcovMain
import Verif.DumpGcovFile
import Verif.DumpGcovEx
import Verif.RoundFloat
import Verif.OverlapFloat
import Verif.StatusFloat
import Verif.FloatUses
import Verif.FileNames
import Verif.FileNamesProps
import Verif.FileNamesMain
import Verif.FileNamesEx
import Verif.CfgStats
import Verif.CfgStatsProps
import Verif.Scale
import Verif.ScaleProps
import Verif.Cleanup
import Verif.CleanupUsed
import Verif.BundleMap
import Verif.SplitDwarf
import Verif.CommaFormat
import Verif.Registry
import Verif.RunProgress
import Verif.ChainStats
