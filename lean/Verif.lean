import Verif.Base.Hardware
import Verif.Base.Num
import Verif.Base.Res
import Verif.Model.Aggregation
import Verif.Model.BestCount
import Verif.Model.Complexity
import Verif.Model.DPartition
import Verif.Model.DQualities
import Verif.Model.HPartition
import Verif.Model.HQualities
import Verif.Model.Heap
import Verif.Model.History
import Verif.Model.Meta
import Verif.Model.OPartition
import Verif.Model.OQualities
import Verif.Model.Objects
import Verif.Model.Partitioner
import Verif.Model.QHistory
import Verif.Model.Quality
import Verif.Model.RBinding
import Verif.Model.RColor
import Verif.Model.RCounter
import Verif.Model.RCounterNaN
import Verif.Model.RFilter
import Verif.Model.RMacro
import Verif.Model.RMicro
import Verif.Model.RNumbers
import Verif.Model.RParse
import Verif.Model.RPlot
import Verif.Model.RSlice
import Verif.Model.SearchCalls
import Verif.Model.Tradeoff
import Verif.Model.UTM
import Verif.Model.Unequal
import Verif.Model.Values
import Verif.Proofs.Aggregation
import Verif.Proofs.AreaGap
import Verif.Proofs.Average
import Verif.Proofs.BadTree
import Verif.Proofs.BestCount
import Verif.Proofs.Chain
import Verif.Proofs.Choice
import Verif.Proofs.CoarseFirst
import Verif.Proofs.Condition
import Verif.Proofs.Containers
import Verif.Proofs.Continuity
import Verif.Proofs.Convex
import Verif.Proofs.Copies
import Verif.Proofs.Counter
import Verif.Proofs.CoverCheck
import Verif.Proofs.Curve
import Verif.Proofs.DCover
import Verif.Proofs.DEntropy
import Verif.Proofs.DExact
import Verif.Proofs.DPart
import Verif.Proofs.DPart2
import Verif.Proofs.DProducts
import Verif.Proofs.DSum
import Verif.Proofs.Data
import Verif.Proofs.Description
import Verif.Proofs.Double
import Verif.Proofs.Dp
import Verif.Proofs.Dump
import Verif.Proofs.Ent
import Verif.Proofs.Entropy
import Verif.Proofs.Exact
import Verif.Proofs.Extreme
import Verif.Proofs.Finite
import Verif.Proofs.GetPath
import Verif.Proofs.Glue
import Verif.Proofs.Group
import Verif.Proofs.HCover
import Verif.Proofs.HEntropy
import Verif.Proofs.HExact
import Verif.Proofs.HMacro
import Verif.Proofs.HPart
import Verif.Proofs.HSum
import Verif.Proofs.Heap
import Verif.Proofs.HeapD
import Verif.Proofs.HeapH
import Verif.Proofs.HeapNorm
import Verif.Proofs.HeapO
import Verif.Proofs.Hierarchy
import Verif.Proofs.Jointly
import Verif.Proofs.Limited
import Verif.Proofs.MRep
import Verif.Proofs.MachineSheet
import Verif.Proofs.Merge
import Verif.Proofs.MetaLoop
import Verif.Proofs.Micro
import Verif.Proofs.Mirror
import Verif.Proofs.Missed
import Verif.Proofs.Missing
import Verif.Proofs.NaN
import Verif.Proofs.Near
import Verif.Proofs.NearLeaf
import Verif.Proofs.NearPart
import Verif.Proofs.Nested
import Verif.Proofs.Norm
import Verif.Proofs.NotNested
import Verif.Proofs.OEntropy
import Verif.Proofs.OExact
import Verif.Proofs.OMacro
import Verif.Proofs.OPart
import Verif.Proofs.OSum
import Verif.Proofs.Objects
import Verif.Proofs.Once
import Verif.Proofs.Overlap
import Verif.Proofs.Path
import Verif.Proofs.Pc
import Verif.Proofs.Plot
import Verif.Proofs.QError
import Verif.Proofs.RBinding
import Verif.Proofs.RInvariant
import Verif.Proofs.RSetup
import Verif.Proofs.Ragged
import Verif.Proofs.Range
import Verif.Proofs.RangeArea
import Verif.Proofs.RangePart
import Verif.Proofs.RangePc
import Verif.Proofs.RangeQ
import Verif.Proofs.RangeSheet
import Verif.Proofs.Reading
import Verif.Proofs.Refine
import Verif.Proofs.Rel
import Verif.Proofs.Renumber
import Verif.Proofs.Reparam
import Verif.Proofs.Resolution
import Verif.Proofs.ResolutionD
import Verif.Proofs.ResolutionH
import Verif.Proofs.ResolutionS
import Verif.Proofs.ResolutionS2
import Verif.Proofs.RoundedArea
import Verif.Proofs.RoundedLog
import Verif.Proofs.Same
import Verif.Proofs.SampleBest
import Verif.Proofs.SampleRuns
import Verif.Proofs.Samples
import Verif.Proofs.Scale
import Verif.Proofs.Search
import Verif.Proofs.SearchCost
import Verif.Proofs.SearchInst
import Verif.Proofs.SearchList
import Verif.Proofs.SearchRel
import Verif.Proofs.SearchShift
import Verif.Proofs.Separately
import Verif.Proofs.Series
import Verif.Proofs.Shift
import Verif.Proofs.Silent
import Verif.Proofs.SilentH
import Verif.Proofs.SilentO
import Verif.Proofs.SilentPad
import Verif.Proofs.Simulate
import Verif.Proofs.Slicer
import Verif.Proofs.SpaceNear
import Verif.Proofs.SpaceTree
import Verif.Proofs.Stretch
import Verif.Proofs.Suffix
import Verif.Proofs.Summed
import Verif.Proofs.Table
import Verif.Proofs.Together
import Verif.Proofs.TogetherD
import Verif.Proofs.TogetherH
import Verif.Proofs.TogetherS
import Verif.Proofs.Tree
import Verif.Proofs.TreeCover
import Verif.Proofs.TreeCoverD
import Verif.Proofs.TreeSum
import Verif.Proofs.UTM
import Verif.Proofs.UnderCheck
import Verif.Proofs.Uniform
import Verif.Proofs.Vec
import Verif.Proofs.Weights
import Verif.Props.C01
import Verif.Props.C02
import Verif.Props.C03
import Verif.Props.C04
import Verif.Props.C05
import Verif.Props.C06
import Verif.Props.C07
import Verif.Props.C08
import Verif.Props.C09
import Verif.Props.C10
import Verif.Props.C100
import Verif.Props.C101
import Verif.Props.C102
import Verif.Props.C103
import Verif.Props.C104
import Verif.Props.C11
import Verif.Props.C12
import Verif.Props.C13
import Verif.Props.C14
import Verif.Props.C15
import Verif.Props.C16
import Verif.Props.C17
import Verif.Props.C18
import Verif.Props.C19
import Verif.Props.C20
import Verif.Props.C21
import Verif.Props.C22
import Verif.Props.C23
import Verif.Props.C24
import Verif.Props.C25
import Verif.Props.C26
import Verif.Props.C27
import Verif.Props.C28
import Verif.Props.C29
import Verif.Props.C30
import Verif.Props.C31
import Verif.Props.C32
import Verif.Props.C33
import Verif.Props.C34
import Verif.Props.C35
import Verif.Props.C36
import Verif.Props.C37
import Verif.Props.C38
import Verif.Props.C39
import Verif.Props.C40
import Verif.Props.C41
import Verif.Props.C42
import Verif.Props.C43
import Verif.Props.C44
import Verif.Props.C45
import Verif.Props.C46
import Verif.Props.C47
import Verif.Props.C48
import Verif.Props.C49
import Verif.Props.C50
import Verif.Props.C51
import Verif.Props.C52
import Verif.Props.C53
import Verif.Props.C54
import Verif.Props.C55
import Verif.Props.C56
import Verif.Props.C57
import Verif.Props.C58
import Verif.Props.C59
import Verif.Props.C60
import Verif.Props.C61
import Verif.Props.C62
import Verif.Props.C63
import Verif.Props.C64
import Verif.Props.C65
import Verif.Props.C66
import Verif.Props.C67
import Verif.Props.C68
import Verif.Props.C69
import Verif.Props.C70
import Verif.Props.C71
import Verif.Props.C72
import Verif.Props.C73
import Verif.Props.C74
import Verif.Props.C75
import Verif.Props.C76
import Verif.Props.C77
import Verif.Props.C78
import Verif.Props.C79
import Verif.Props.C80
import Verif.Props.C81
import Verif.Props.C82
import Verif.Props.C83
import Verif.Props.C84
import Verif.Props.C85
import Verif.Props.C86
import Verif.Props.C87
import Verif.Props.C88
import Verif.Props.C89
import Verif.Props.C90
import Verif.Props.C91
import Verif.Props.C92
import Verif.Props.C93
import Verif.Props.C94
import Verif.Props.C95
import Verif.Props.C96
import Verif.Props.C97
import Verif.Props.C98
import Verif.Props.C99
import Verif.Spec.Aggregate
import Verif.Spec.Binary
import Verif.Spec.BinaryReal
import Verif.Spec.Cell
import Verif.Spec.CoarseFirst
import Verif.Spec.Counter
import Verif.Spec.CounterInput
import Verif.Spec.Cover
import Verif.Spec.Data
import Verif.Spec.Description
import Verif.Spec.Double
import Verif.Spec.Dump
import Verif.Spec.Entropy
import Verif.Spec.Float
import Verif.Spec.Limited
import Verif.Spec.Machine
import Verif.Spec.Means
import Verif.Spec.Memory
import Verif.Spec.Mirror
import Verif.Spec.NearLeaf
import Verif.Spec.Partitioner
import Verif.Spec.Pc
import Verif.Spec.Ragged
import Verif.Spec.Range
import Verif.Spec.RangeMachine
import Verif.Spec.RangePc
import Verif.Spec.Reading
import Verif.Spec.Registered
import Verif.Spec.Renumber
import Verif.Spec.Reparam
import Verif.Spec.Resources
import Verif.Spec.Rounded
import Verif.Spec.RoundedArea
import Verif.Spec.RoundedLog
import Verif.Spec.SameArray
import Verif.Spec.Series
import Verif.Spec.Sheet
import Verif.Spec.Slicing
import Verif.Spec.Space
import Verif.Spec.Special
import Verif.Spec.Stretch
import Verif.Spec.Subsystems
import Verif.Spec.SumOf
import Verif.Spec.Summed
import Verif.Spec.Table
import Verif.Spec.Thresholds
import Verif.Spec.Tiling
import Verif.Spec.Tree
import Verif.Spec.Uniform
import Verif.Spec.Value
import Verif.Spec.ValueSemantics
