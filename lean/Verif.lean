import Verif.Lemmas.Access
import Verif.Lemmas.AcyclicMin
import Verif.Lemmas.Agree
import Verif.Lemmas.AllPairs
import Verif.Lemmas.Append
import Verif.Lemmas.Arcs
import Verif.Lemmas.ArcsStep
import Verif.Lemmas.AutoQueue
import Verif.Lemmas.Caches
import Verif.Lemmas.ComposeFilters
import Verif.Lemmas.ComposeGen
import Verif.Lemmas.ComposeLaw
import Verif.Lemmas.ComposePairs
import Verif.Lemmas.ComposeStatic
import Verif.Lemmas.ComposeSum
import Verif.Lemmas.ComputeOk
import Verif.Lemmas.ComputeProps
import Verif.Lemmas.ConstText
import Verif.Lemmas.Continue
import Verif.Lemmas.Convert
import Verif.Lemmas.Counters
import Verif.Lemmas.CyclicMin
import Verif.Lemmas.DecHist
import Verif.Lemmas.DelStates
import Verif.Lemmas.DetDisamb
import Verif.Lemmas.DetDistance
import Verif.Lemmas.DetFinite
import Verif.Lemmas.DetFst
import Verif.Lemmas.DetFull
import Verif.Lemmas.DetFunc
import Verif.Lemmas.DetFuncTotal
import Verif.Lemmas.DetNonFunc
import Verif.Lemmas.DetSupport
import Verif.Lemmas.DetWeights
import Verif.Lemmas.Determinize
import Verif.Lemmas.Dfs
import Verif.Lemmas.Embed
import Verif.Lemmas.EncMinMain
import Verif.Lemmas.Encode
import Verif.Lemmas.EncodedMin
import Verif.Lemmas.EpsExpand
import Verif.Lemmas.EpsLoop
import Verif.Lemmas.EpsSums
import Verif.Lemmas.FactorFinite
import Verif.Lemmas.FactorSums
import Verif.Lemmas.FactorWeight
import Verif.Lemmas.FwFinal
import Verif.Lemmas.Gallic
import Verif.Lemmas.GallicDet
import Verif.Lemmas.GallicLeft
import Verif.Lemmas.GallicSemiring
import Verif.Lemmas.GallicSums
import Verif.Lemmas.Graded
import Verif.Lemmas.Heap
import Verif.Lemmas.Heights
import Verif.Lemmas.Hopcroft
import Verif.Lemmas.Iso
import Verif.Lemmas.IsoMore
import Verif.Lemmas.JoinPaths
import Verif.Lemmas.KMerge
import Verif.Lemmas.LabelJoin
import Verif.Lemmas.LabelOp
import Verif.Lemmas.LabelOpIn
import Verif.Lemmas.LabelPaths
import Verif.Lemmas.LabelPathsIn
import Verif.Lemmas.LabelPrefix
import Verif.Lemmas.LabelPrefixIn
import Verif.Lemmas.LabelStatic
import Verif.Lemmas.LabelStaticIn
import Verif.Lemmas.LabelTr
import Verif.Lemmas.LangEval
import Verif.Lemmas.Lazy
import Verif.Lemmas.Lazy2
import Verif.Lemmas.LazyCompute
import Verif.Lemmas.LazyFiles
import Verif.Lemmas.LazyRational
import Verif.Lemmas.LazyStates
import Verif.Lemmas.LazyThreads
import Verif.Lemmas.ListAux
import Verif.Lemmas.LookCut
import Verif.Lemmas.LookLabel
import Verif.Lemmas.LookPush
import Verif.Lemmas.LookRelabel
import Verif.Lemmas.LookTr
import Verif.Lemmas.MergeStates
import Verif.Lemmas.MergedInto
import Verif.Lemmas.MergedLang
import Verif.Lemmas.Mid
import Verif.Lemmas.MinFuel
import Verif.Lemmas.MinSteps
import Verif.Lemmas.MinTr
import Verif.Lemmas.NspGrow
import Verif.Lemmas.NspLoop
import Verif.Lemmas.NspOrder
import Verif.Lemmas.NspSearch
import Verif.Lemmas.Numbering
import Verif.Lemmas.Optimize
import Verif.Lemmas.Parse
import Verif.Lemmas.PartList
import Verif.Lemmas.PartOps
import Verif.Lemmas.PartSplit
import Verif.Lemmas.Partition
import Verif.Lemmas.Path
import Verif.Lemmas.PathIter
import Verif.Lemmas.Presents
import Verif.Lemmas.PresentsFlags
import Verif.Lemmas.PushLabels
import Verif.Lemmas.PushLabelsR
import Verif.Lemmas.PushShape
import Verif.Lemmas.PushSums
import Verif.Lemmas.Queues
import Verif.Lemmas.RandFan
import Verif.Lemmas.RandFlags
import Verif.Lemmas.RandLoop
import Verif.Lemmas.RandPaths
import Verif.Lemmas.RandSample
import Verif.Lemmas.RandTree
import Verif.Lemmas.RandVisit
import Verif.Lemmas.Reach
import Verif.Lemmas.ReachData
import Verif.Lemmas.ReachLabel
import Verif.Lemmas.ReachState
import Verif.Lemmas.ReachUse
import Verif.Lemmas.Relabel
import Verif.Lemmas.Renum
import Verif.Lemmas.Replace
import Verif.Lemmas.ReplaceFlags
import Verif.Lemmas.ReplaceNew
import Verif.Lemmas.ReplaceOp
import Verif.Lemmas.Reverse
import Verif.Lemmas.Reweigh
import Verif.Lemmas.ReweightLoop
import Verif.Lemmas.ReweightPath
import Verif.Lemmas.ReweightStart
import Verif.Lemmas.RmEpsLazy
import Verif.Lemmas.Scc
import Verif.Lemmas.SccQueue
import Verif.Lemmas.SccVisit
import Verif.Lemmas.SdAcyclic
import Verif.Lemmas.SdIdem
import Verif.Lemmas.SdLoop
import Verif.Lemmas.SdReverse
import Verif.Lemmas.Shape
import Verif.Lemmas.ShortestFirst
import Verif.Lemmas.Sigma
import Verif.Lemmas.SortEval
import Verif.Lemmas.SpBack
import Verif.Lemmas.SpLoop
import Verif.Lemmas.SymFst
import Verif.Lemmas.Table
import Verif.Lemmas.Tarjan
import Verif.Lemmas.Tarjan2
import Verif.Lemmas.Text
import Verif.Lemmas.Top
import Verif.Lemmas.Total
import Verif.Lemmas.TrMap
import Verif.Lemmas.TrOrder
import Verif.Lemmas.Trim
import Verif.Lemmas.Truthful
import Verif.Lemmas.Walks
import Verif.Lemmas.Weights
import Verif.Lemmas.Wf
import Verif.Model.AllPairs
import Verif.Model.Arcs
import Verif.Model.BinFst
import Verif.Model.Bytes
import Verif.Model.Compose
import Verif.Model.ComputeProps
import Verif.Model.ConstText
import Verif.Model.Convert
import Verif.Model.Core
import Verif.Model.Determinize
import Verif.Model.DeterminizeFst
import Verif.Model.Dfs
import Verif.Model.FactorWeight
import Verif.Model.FinalOps
import Verif.Model.GallicLeft
import Verif.Model.Heap
import Verif.Model.History
import Verif.Model.IntervalSet
import Verif.Model.Isomorphic
import Verif.Model.LabelFilter
import Verif.Model.Lazy
import Verif.Model.LazyFiles
import Verif.Model.LazyRational
import Verif.Model.LazyThreads
import Verif.Model.LogWeight
import Verif.Model.LookAhead
import Verif.Model.Minimize
import Verif.Model.MinimizeFull
import Verif.Model.MinimizeTr
import Verif.Model.Mutate
import Verif.Model.NShortest
import Verif.Model.Optimize
import Verif.Model.Partition
import Verif.Model.Paths
import Verif.Model.PropBits
import Verif.Model.PushLabels
import Verif.Model.Queues
import Verif.Model.RandGen
import Verif.Model.Rational
import Verif.Model.Reachable
import Verif.Model.Replace
import Verif.Model.Reweight
import Verif.Model.RmEpsLazy
import Verif.Model.RmEpsilon
import Verif.Model.ShortestDistance
import Verif.Model.ShortestFirst
import Verif.Model.ShortestPath
import Verif.Model.ShortestUnique
import Verif.Model.SigmaMatcher
import Verif.Model.StateTable
import Verif.Model.SymAlgs
import Verif.Model.SymFst
import Verif.Model.SymTable
import Verif.Model.Text
import Verif.Model.TrMap
import Verif.Model.TrOrder
import Verif.Model.VectorFst
import Verif.Model.WeightCodecs
import Verif.Model.Weights
import Verif.Props.C01
import Verif.Props.C03
import Verif.Props.C04
import Verif.Props.C05
import Verif.Props.C07
import Verif.Props.C08
import Verif.Props.C10
import Verif.Props.C12
import Verif.Props.C14
import Verif.Props.C14Flags
import Verif.Props.C14Full
import Verif.Props.C16Flags
import Verif.Props.C17
import Verif.Props.C18
import Verif.Props.C19
import Verif.Props.C20
import Verif.Props.C21
import Verif.Props.C22
import Verif.Props.C23
import Verif.Props.C24
import Verif.Props.C25
import Verif.Props.C27
import Verif.Props.C28
import Verif.Props.C28Flags
import Verif.Props.C29
import Verif.Props.C30
import Verif.Props.C31
import Verif.Props.C31Push
import Verif.Props.C32
import Verif.Props.C33
import Verif.Props.C34
import Verif.Props.C35
import Verif.Props.C36
import Verif.Props.C37
import Verif.Props.C38
import Verif.Props.C39
import Verif.Props.C39Flags
import Verif.Props.C40
import Verif.Props.C40Flags
import Verif.Props.C41
import Verif.Props.C41Flags
import Verif.Props.C42
import Verif.Props.C42Flags
import Verif.Props.C43
import Verif.Props.C44
import Verif.Props.C45
import Verif.Props.C46
import Verif.Props.C46Shortest
import Verif.Props.C47
import Verif.Props.C48
import Verif.Props.C49
import Verif.Props.C50
import Verif.Props.C50Mappers
import Verif.Props.C52
import Verif.Props.C53
import Verif.Props.C57
import Verif.Props.C59
import Verif.Props.C60
import Verif.Props.C61
import Verif.Props.C61Weights
import Verif.Props.C62
import Verif.Props.C63
import Verif.Props.C64
import Verif.Props.C64Delayed
import Verif.Props.C64Exists
import Verif.Props.C64Flags
import Verif.Props.C64Shown
import Verif.Props.C65
import Verif.Props.C66
import Verif.Props.C67
import Verif.Props.C68
import Verif.Props.C69
import Verif.Props.C69Trans
import Verif.Props.C70
import Verif.Props.C71
import Verif.Props.C72
import Verif.Props.C73
import Verif.Props.C74
import Verif.Props.C75
import Verif.Props.C76
import Verif.Props.C77
import Verif.Props.C78
import Verif.Props.C79
import Verif.Spec.Agree
import Verif.Spec.Compose
import Verif.Spec.DelStates
import Verif.Spec.Delayed
import Verif.Spec.Determinize
import Verif.Spec.Distance
import Verif.Spec.Epsilon
import Verif.Spec.Graph
import Verif.Spec.History
import Verif.Spec.Iso
import Verif.Spec.Lazy
import Verif.Spec.Lazy2
import Verif.Spec.LazyThreads
import Verif.Spec.Legs
import Verif.Spec.Machine
import Verif.Spec.Minimize
import Verif.Spec.NBest
import Verif.Spec.NBestStrings
import Verif.Spec.Optimize
import Verif.Spec.Partition
import Verif.Spec.Path
import Verif.Spec.PushLabels
import Verif.Spec.Queue
import Verif.Spec.RandGen
import Verif.Spec.Reachable
import Verif.Spec.Replace
import Verif.Spec.Reweight
import Verif.Spec.Semiring
import Verif.Spec.ShortestFirst
import Verif.Spec.Sigma
import Verif.Spec.Spelled
import Verif.Spec.Symbols
import Verif.Spec.Table
import Verif.Spec.TextRows
import Verif.Spec.TrMap
import Verif.Spec.Values
