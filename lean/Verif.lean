import Verif.Util
import Verif.Stack
import Verif.Dfa
import Verif.Stream
import Verif.Lexer
import Verif.Spec.Json
import Verif.Spec.Path
import Verif.Spec.Below
import Verif.Doc
import Verif.StreamProofs
import Verif.LexerProofs
import Verif.LexerDoc
import Verif.Worklist
import Verif.Regex
import Verif.Mixer
import Verif.Compressed
import Verif.Ast
import Verif.QueryBuilder
import Verif.TableProofs
import Verif.PathCtx
import Verif.PathLang
import Verif.PathProofs
import Verif.Spec.Text
import Verif.Seen
import Verif.Eval
import Verif.Predicate
import Verif.Load
import Verif.Serial
import Verif.PathSerial
import Verif.Props.Query
import Verif.Props.Automaton
import Verif.Spec.Tokens
import Verif.Spec.Layout
import Verif.TokenSpec
import Verif.EmitV
import Verif.StreamInv
import Verif.Props.Tokens
import Verif.Props.Stream
import Verif.PieceSim
import Verif.LexerCut
import Verif.Spec.Strings
import Verif.PieceDoc
import Verif.Props.Pieces
import Verif.Props.PiecesDoc
import Verif.Spec.Expr
import Verif.Props.Expr
import Verif.Spec.Forest
import Verif.Props.Filter
import Verif.Props.Index
import Verif.Props.IndexList
import Verif.Props.MergeSlice
import Verif.Constraint
import Verif.Spec.Log
import Verif.Props.Constraint
import Verif.Partition
import Verif.Props.Partition
import Verif.Spec.Scalar
import Verif.Parser
import Verif.Spec.Syntax
import Verif.ParserProofs
import Verif.Props.Parser
import Verif.MultiStack
import Verif.Worker
import Verif.Combine
import Verif.ChainProofs
import Verif.LevelProofs
import Verif.WorkerView
import Verif.WorkerStart
import Verif.WorkerTrack
import Verif.Props.Chain
import Verif.Props.Schedule
import Verif.Grammar
import Verif.ParRel
import Verif.ParJoin
import Verif.ParStep
import Verif.ParComb
import Verif.ParMerge
import Verif.ParUnits
import Verif.WorkerSafe
import Verif.ParSafe
import Verif.ParRooted
import Verif.ParSafeK
import Verif.ParSafeAll
import Verif.ParResume
import Verif.Carry
import Verif.ParResource
import Verif.DocFrames
import Verif.Spec.Nest
import Verif.DocSafe
import Verif.PruneProofs
import Verif.ParChunk
import Verif.CtlSim
import Verif.Spec.Spans
import Verif.DocSplit
import Verif.DocCuts
import Verif.PathTable
import Verif.SpanProofs
import Verif.Props.Parallel
import Verif.Props.Footprint
import Verif.InChunk
import Verif.Props.Worker
import Verif.Spec.Level
import Verif.SyntaxPar
import Verif.Props.SyntaxStack
import Verif.Resource
import Verif.Props.Resource
import Verif.Spec.FilterPath
import Verif.FilterCtx
import Verif.FilterTable
import Verif.FilterForest
import Verif.FilterVerdict
import Verif.FilterSelect
import Verif.FilterRun
import Verif.Props.FilterRun
import Verif.FilterUb
import Verif.Props.Capacity
import Verif.FilterLast
import Verif.Spec.FilterSlice
import Verif.FilterPrune
import Verif.FilterSliceCtx
import Verif.FilterSliceTable
import Verif.FilterSliceWords
import Verif.FilterSliceForest
import Verif.Props.FilterSlice
import Verif.FilterPrefix
import Verif.FilterBelow
import Verif.Props.FilterBelow
import Verif.Props.FilterLast
import Verif.Reprocess
import Verif.UnitSpan
import Verif.StateBound
import Verif.Props.Prune
import Verif.Props.ParallelSafe
import Verif.Props.ParallelFilter
import Verif.Props.PruneFilter
import Verif.Indet
import Verif.Props.Indeterminate
import Verif.Props.ParallelPieces
import Verif.Props.ParResource
import Verif.Props.PiecesOpt
import Verif.CharSet
import Verif.CharSetProofs
import Verif.EquivClass
import Verif.EquivClassProofs
import Verif.Props.CharClass
import Verif.Props.EquivClass
import Verif.Props.RegexTree
import Verif.Props.NonGreedy
import Verif.Props.LoadBuffer
import Verif.Props.Defined
import Verif.RegexTree
import Verif.RegexTreeProofs
import Verif.Spec.CharClass
import Verif.Spec.Regex
import Verif.StateCount
import Verif.StateBlowup
import Verif.PathStates
import Verif.Props.StateCount
import Verif.Props.FilterFootprint
import Verif.Props.ParallelBelow
import Verif.Props.PruneBelow
import Verif.Props.ParallelSlice
import Verif.FilterSliceLoc
import Verif.Props.Total
import Verif.Props.Strict
import Verif.Props.Instances
import Verif.Props.PathSizes
import Verif.SliceActual
import Verif.Spec.SliceActual
import Verif.Props.SliceActual
import Verif.Props.ParallelActual
import Verif.Props.OptActual
import Verif.Props.Strings
import Verif.Spec.Keys
import Verif.Props.Learn
import Verif.Props.EmptySlice
import Verif.FilterStates
import Verif.MergeSlice
import Verif.IndexList
import Verif.Spec.Slice
import Verif.Spec.Total
import Verif.Spec.IndexList
import Verif.Spec.Shape
import Verif.Props.Train
import Verif.Props.TrainMore
import Verif.LexerUnit
import Verif.Props.Again
import Verif.Props.Bounds
import Verif.Caps
import Verif.Props.Caps
import Verif.Props.CapsSerial
