import Verif.Prelude.Py
import Verif.Proofs.PyLemmas
import Verif.Model.Graph
import Verif.Proofs.GraphLemmas
import Verif.Spec.GraphHistory
import Verif.Proofs.DirectedGraph
import Verif.Props.C01_C05_DirectedGraph
import Verif.Proofs.UndirectedGraph
import Verif.Props.C06_C07_UndirectedGraph
import Verif.Proofs.IncidenceGraph
import Verif.Props.C08_IncidenceGraph
import Verif.Model.Interface
import Verif.Spec.Path
import Verif.Proofs.PathLemmas
import Verif.Props.C09_C10_Reverse_GraphView
import Verif.Model.Automaton
import Verif.Spec.Language
import Verif.Proofs.AutomatonLemmas
import Verif.Proofs.IncidenceAutomaton
import Verif.Props.C11_C13_C24_Automaton
import Verif.Proofs.TrieLemmas
import Verif.Props.C14_C18_Trie
import Verif.Model.DigitalSequence
import Verif.Props.C19_DigitalSequence
import Verif.Proofs.MakeAutomaton
import Verif.Props.C23_MakeAutomaton
import Verif.Model.NodeAutomaton
import Verif.Proofs.NodeAutomaton
import Verif.Props.C21_C22_NodeAutomaton
import Verif.Model.Distance
import Verif.Spec.Edit
import Verif.Proofs.Distance
import Verif.Props.C67_C71_Distance
import Verif.Model.BKTree
import Verif.Proofs.Weight
import Verif.Proofs.BKTree
import Verif.Props.C72_C73_BKTree
import Verif.Model.Nfa
import Verif.Spec.NfaLanguage
import Verif.Proofs.NfaLemmas
import Verif.Proofs.Moore
import Verif.Proofs.NfaWF
import Verif.Props.C25_C28_Nfa
import Verif.Model.Thompson
import Verif.Spec.Regex
import Verif.Proofs.ThompsonPaths
import Verif.Proofs.Thompson
import Verif.Proofs.ThompsonRep
import Verif.Proofs.ThompsonLang
import Verif.Props.C29_C34_Thompson
import Verif.Model.Search
import Verif.Proofs.DfsSim
import Verif.Spec.Traversal
import Verif.Proofs.Dfs
import Verif.Model.DfsApps
import Verif.Props.C51_C54_Dfs
import Verif.Proofs.Tarjan
import Verif.Props.C55_StrongComponents
import Verif.Props.C56_C58_DfsApps
import Verif.Proofs.Bfs
import Verif.Props.C48_C50_Bfs
import Verif.Proofs.Tree
import Verif.Props.C59_Tree
import Verif.Model.Prune
import Verif.Proofs.Prune
import Verif.Props.C43_Prune
import Verif.Model.Product
import Verif.Spec.Product
import Verif.Proofs.Pbfs
import Verif.Proofs.PbfsWords
import Verif.Props.C44_C45_Pbfs
import Verif.Proofs.Fusion
import Verif.Props.C16_C20_Fusion
import Verif.Proofs.Product
import Verif.Props.C46_C47_Product
import Verif.Model.Hopcroft
import Verif.Proofs.Hopcroft
import Verif.Spec.Minimal
import Verif.Proofs.HopcroftBuild
import Verif.Props.C38_C40_Hopcroft
import Verif.Model.Heap
import Verif.Proofs.Heapq
import Verif.Spec.Queue
import Verif.Proofs.Heap
import Verif.Model.Algebra
import Verif.Props.C65_C66_Heap
import Verif.Model.Dijkstra
import Verif.Spec.ShortestPath
import Verif.Proofs.Dijkstra
import Verif.Proofs.DijkstraRun
import Verif.Proofs.DijkstraDag
import Verif.Props.C60_C64_Dijkstra
import Verif.Model.ShuntingYard
import Verif.Spec.Expr
import Verif.Proofs.ShuntingYard
import Verif.Proofs.Rpn
import Verif.Props.C35_C37_Expr
import Verif.Props.C80_NfaEdges
import Verif.Model.Misc
import Verif.Props.C74_C77_Misc
import Verif.Model.Revuz
import Verif.Spec.Height
import Verif.Proofs.RevuzHeight
import Verif.Props.C41_RevuzHeight
import Verif.Proofs.Revuz
import Verif.Props.C42_Revuz
import Verif.Model.RegexText
import Verif.Spec.RegexText
import Verif.Proofs.RegexBracket
import Verif.Proofs.RegexText
import Verif.Props.C82_RegexText
import Verif.Spec.AlgText
import Verif.Proofs.AlgText
import Verif.Props.C87_AlgText
import Verif.Proofs.MakeNodeAutomaton
import Verif.Props.C88_C89_NodeAutomaton
import Verif.Model.Graphviz
import Verif.Proofs.Graphviz
import Verif.Props.C90_Graphviz
import Verif.Spec.Graphviz
import Verif.Model.RevuzNode
import Verif.Proofs.RevuzNode
import Verif.Props.C92_RevuzNode
import Verif.Props.C90_GraphvizLines
import Verif.Props.C93_InsertString
import Verif.Model.AutomatonCopy
import Verif.Props.C94_AutomatonCopy
import Verif.Spec.Json
import Verif.Model.GraphDp
import Verif.Proofs.Json
import Verif.Props.C95_Json
import Verif.Props.C23_Structure
import Verif.Props.C96_Undirected
import Verif.Props.C97_UndirectedDijkstra
import Verif.Props.C98_UndirectedCopy
import Verif.Spec.RegexPaths
import Verif.Proofs.ThompsonEnds
import Verif.Props.C99_RegexExact
import Verif.Model.AstExpr
import Verif.Props.C100_AstExpr
import Verif.Model.RevuzVisitor
import Verif.Spec.RevuzVisitor
import Verif.Proofs.RevuzVisitor
import Verif.Props.C101_RevuzVisitor
import Verif.Model.Helpers
import Verif.Props.C102_C107_Helpers
import Verif.Props.C46_C47_Exact
import Verif.Model.Drawing
import Verif.Proofs.Drawing
import Verif.Props.C108_Drawing
import Verif.Model.GraphvizIO
import Verif.Props.C109_C111_GraphvizIO
import Verif.Prelude.PyM
import Verif.Model.Failure
import Verif.Spec.FailureHistory
import Verif.Proofs.PyM
import Verif.Proofs.Failure
import Verif.Props.C112_Failure
import Verif.Proofs.Clear
import Verif.Props.C113_Clear
import Verif.Model.FailureAutomaton
import Verif.Spec.Tried
import Verif.Proofs.FailureAutomaton
import Verif.Props.C114_FailureAutomaton
import Verif.Model.MooreInto
import Verif.Proofs.MooreInto
import Verif.Props.C115_MooreInto
import Verif.Props.C116_CompareRegex
import Verif.Spec.Iso
import Verif.Props.C117_Canonical
import Verif.Model.PbfsI
import Verif.Proofs.PbfsI
import Verif.Props.C118_DigitalSequence
import Verif.Proofs.ThompsonWF
import Verif.Spec.RegexRead
import Verif.Proofs.RegexRead
import Verif.Props.C119_RegexRead
import Verif.Props.C120_DistanceLaws
import Verif.Props.C121_Views
import Verif.Proofs.Damerau
import Verif.Proofs.BKTreeAny
import Verif.Props.C122_BKTreeAny
import Verif.Model.ViewDrawing
import Verif.Model.MakeINode
import Verif.Props.C123_ViewDrawing
import Verif.Props.C124_MakeINode
import Verif.Model.InsertIncidence
import Verif.Proofs.MinimalIso
import Verif.Props.C125_Dawg
import Verif.Props.C126_Agreement
import Verif.Model.Color
import Verif.Props.C127_Color
import Verif.Model.NfaStore
import Verif.Props.C128_NfaStore
import Verif.Props.C129_ReadDrawing
import Verif.Props.C130_InitialFinal
import Verif.Spec.RegexSyntax
import Verif.Proofs.RegexSyntax
import Verif.Props.C131_RegexSyntax
import Verif.Proofs.RpnForest
import Verif.Props.C132_Rpn
import Verif.Model.NfaQueries
import Verif.Proofs.NfaHistory
import Verif.Props.C133_NfaQueries
import Verif.Proofs.InEdges
import Verif.Model.GraphvizVisitor
import Verif.Props.C135_GraphvizVisitor
import Verif.Spec.ColorMask
import Verif.Proofs.ColorMask
import Verif.Proofs.DijkstraMask
import Verif.Props.C136_SharedColors
import Verif.Spec.Sizes
import Verif.Proofs.ThompsonSize
import Verif.Props.C138_Sizes
import Verif.Props.C139_MooreSink
import Verif.Proofs.DijkstraAny
import Verif.Props.C140_DijkstraAny
import Verif.Props.C82_RegexErrors
import Verif.Model.ProductInto
import Verif.Proofs.ProductInto
import Verif.Props.C141_ProductInto
import Verif.Proofs.ThompsonShift
import Verif.Props.C99_RangeShifted
import Verif.Spec.NodeHistory
import Verif.Proofs.NodeHistory
import Verif.Props.C21_C22_NodeHistory
import Verif.Spec.DijkstraCalls
import Verif.Proofs.DijkstraCalls
import Verif.Props.C142_DijkstraCalls
import Verif.Props.C143_Reversed
import Verif.Props.C87_Tokens
import Verif.Props.C90_LineEnds
import Verif.Spec.Trail
import Verif.Proofs.MakePath
import Verif.Props.C62_Ends
import Verif.Model.Reversed
import Verif.Spec.ReverseHistory
import Verif.Proofs.Reversed
import Verif.Model.ViewForward
import Verif.Spec.Views
import Verif.Props.C144_Views
import Verif.Model.ReEscape
import Verif.Proofs.ReEscape
import Verif.Props.C145_ReEscape
import Verif.Props.C02_Distinguishers
import Verif.Model.CopyInto
import Verif.Spec.CopyInto
import Verif.Proofs.CopyInto
import Verif.Props.C146_CopyInto
import Verif.Proofs.ThompsonEpsilon
import Verif.Props.C147_Epsilon
import Verif.Spec.ThompsonNet
import Verif.Proofs.ThompsonNet
import Verif.Props.C148_Automaton
import Verif.Model.DijkstraVisitor
import Verif.Spec.DijkstraCrash
import Verif.Proofs.DijkstraCrash
import Verif.Props.C149_Interruption
import Verif.Model.SearchVisitor
import Verif.Spec.SearchColors
import Verif.Proofs.SearchColors
import Verif.Props.C150_SearchColors
import Verif.Model.DistanceLimit
import Verif.Proofs.DistanceLimit
import Verif.Props.C151_DistanceLimit
import Verif.Model.FloatWeights
import Verif.Spec.FloatWeights
import Verif.Proofs.FloatWeights
import Verif.Proofs.FloatDijkstra
import Verif.Props.C152_FloatWeights
import Verif.Props.C126_Exact
import Verif.Props.C66_Exact
import Verif.Model.LazyIter
import Verif.Spec.LazyIter
import Verif.Proofs.LazyIter
import Verif.Proofs.LazyOps
import Verif.Proofs.LazyWalk
import Verif.Props.C154_LazyIteration
import Verif.Model.HeapCalls
import Verif.Model.BKTreeCalls
import Verif.Spec.Calls
import Verif.Proofs.HeapCalls
import Verif.Proofs.BKTreeCalls
import Verif.Props.C155_C156_Calls
import Verif.Model.ThompsonStore
import Verif.Proofs.ThompsonStore
import Verif.Props.C157_ThompsonObjects
import Verif.Model.DynSearch
import Verif.Proofs.DynSearch
import Verif.Props.C158_DynSearch
import Verif.Model.ProductAlias
import Verif.Proofs.ProductAlias
import Verif.Props.C159_ProductAlias
import Verif.Model.FusionSelf
import Verif.Props.C160_FusionSelf
import Verif.Model.LazyAutomaton
import Verif.Spec.LazyAutomaton
import Verif.Proofs.LazyAutomaton
import Verif.Props.C161_LazyAutomaton
import Verif.Model.LazyIncidenceAutomaton
import Verif.Proofs.LazyIncidenceAutomaton
import Verif.Props.C162_LazyIncidence
import Verif.Model.SearchObjects
import Verif.Proofs.SearchObjects
import Verif.Props.C163_TopologicalInPlace
import Verif.Model.LazyView
import Verif.Proofs.LazyView
import Verif.Props.C164_LazyView
import Verif.Model.NfaCalls
import Verif.Spec.LazyNfa
import Verif.Proofs.LazyNfa
import Verif.Props.C165_NfaFailures
import Verif.Props.C166_LazyNfa
import Verif.Model.NfaObjects
import Verif.Spec.NfaObjects
import Verif.Proofs.NfaObjects
import Verif.Props.C167_NfaDescriptors
import Verif.Model.AutomatonTests
import Verif.Spec.AutomatonTests
import Verif.Props.C168_IsMinimal
import Verif.Model.BfsObjects
import Verif.Spec.BfsObjects
import Verif.Proofs.BfsObjects
import Verif.Props.C169_BfsObjects
import Verif.Model.AggregatedObjects
import Verif.Props.C170_AggregatedObjects
import Verif.Model.DijkstraPathVisitor
import Verif.Props.C171_DijkstraPathVisitor
import Verif.Model.PbfsObjects
import Verif.Spec.PbfsObjects
import Verif.Proofs.PbfsObjects
import Verif.Props.C172_PbfsObjects
import Verif.Spec.PairFinder
import Verif.Proofs.PbfsOrder
import Verif.Props.C173_ShortestPair
import Verif.Proofs.PbfsLength
