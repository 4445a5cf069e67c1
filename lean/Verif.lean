import Verif.Model.Agent
import Verif.Model.Applicative
import Verif.Model.Arrange
import Verif.Model.Arranged
import Verif.Model.BatchContainer
import Verif.Model.Bfs
import Verif.Model.Bijkstra
import Verif.Model.Calculus
import Verif.Model.Capture
import Verif.Model.Chunk
import Verif.Model.ChunkCursor
import Verif.Model.ChunkHarness
import Verif.Model.Clone
import Verif.Model.ColChunk
import Verif.Model.ColCollection
import Verif.Model.Coll
import Verif.Model.Columnar
import Verif.Model.Consolidation
import Verif.Model.Containers
import Verif.Model.Cursor
import Verif.Model.Difference
import Verif.Model.Discover
import Verif.Model.Dynamic
import Verif.Model.Explain
import Verif.Model.Extend
import Verif.Model.HalfJoin
import Verif.Model.HalfJoin2
import Verif.Model.History
import Verif.Model.Identifiers
import Verif.Model.Import
import Verif.Model.Input
import Verif.Model.Iterate
import Verif.Model.JoinOp
import Verif.Model.Lattice
import Verif.Model.Linear
import Verif.Model.LookupMap
import Verif.Model.Lower
import Verif.Model.MergeBatcher
import Verif.Model.NavChunk
import Verif.Model.OrdKey
import Verif.Model.OrdVal
import Verif.Model.Pipe
import Verif.Model.PointStamp
import Verif.Model.PrefixSum
import Verif.Model.Propagate
import Verif.Model.ProxyJoin
import Verif.Model.ProxyReduce
import Verif.Model.Recipe
import Verif.Model.Reduce
import Verif.Model.ReduceOp
import Verif.Model.ReduceReference
import Verif.Model.Reverse
import Verif.Model.Scalar
import Verif.Model.Scc
import Verif.Model.ScopeIr
import Verif.Model.Sequential
import Verif.Model.Server
import Verif.Model.Shapes
import Verif.Model.Source
import Verif.Model.SourceAst
import Verif.Model.Spill
import Verif.Model.Spine
import Verif.Model.Surface
import Verif.Model.Tile
import Verif.Model.TimeOrd
import Verif.Model.TotalOps
import Verif.Model.TraceCursor
import Verif.Model.TrieMerger
import Verif.Model.Upsert
import Verif.Model.VecLinear
import Verif.Model.Wrappers
import Verif.Model.Writer
import Verif.Proofs.Agent
import Verif.Proofs.Applicative
import Verif.Proofs.ApplicativeComplete
import Verif.Proofs.ApplicativeLex
import Verif.Proofs.ApplicativeSound
import Verif.Proofs.Arrange
import Verif.Proofs.ArrangedCheck
import Verif.Proofs.ArrangedJoin
import Verif.Proofs.ArrangedKind
import Verif.Proofs.ArrangedRun
import Verif.Proofs.ArrangedShows
import Verif.Proofs.ArrangedSide
import Verif.Proofs.BatchContainer
import Verif.Proofs.Bfs
import Verif.Proofs.Bijkstra
import Verif.Proofs.BijkstraRun
import Verif.Proofs.Capture
import Verif.Proofs.CaptureSink
import Verif.Proofs.Chunk
import Verif.Proofs.ChunkAdvance
import Verif.Proofs.ChunkBatch
import Verif.Proofs.ChunkCursor
import Verif.Proofs.ChunkHarness
import Verif.Proofs.ChunkHarnessSpine
import Verif.Proofs.ChunkLaws
import Verif.Proofs.ChunkPresents
import Verif.Proofs.ChunkSpine
import Verif.Proofs.Clone
import Verif.Proofs.CloneSem
import Verif.Proofs.CloneSplice
import Verif.Proofs.ColAdvance
import Verif.Proofs.ColBasic
import Verif.Proofs.ColCollection
import Verif.Proofs.ColCursor
import Verif.Proofs.ColExchange
import Verif.Proofs.ColForm
import Verif.Proofs.ColIter
import Verif.Proofs.ColMerge
import Verif.Proofs.ColRetain
import Verif.Proofs.ColSelect
import Verif.Proofs.Coll
import Verif.Proofs.Colors
import Verif.Proofs.Consolidation
import Verif.Proofs.Containers
import Verif.Proofs.CursorBatch
import Verif.Proofs.CursorList
import Verif.Proofs.CursorListSim
import Verif.Proofs.CursorRun
import Verif.Proofs.CursorUnion
import Verif.Proofs.Dataflow
import Verif.Proofs.Delta
import Verif.Proofs.DeltaChain
import Verif.Proofs.Discover
import Verif.Proofs.DiscoverLoop
import Verif.Proofs.DiscoverRight
import Verif.Proofs.Dynamic
import Verif.Proofs.Explain
import Verif.Proofs.ExplainColumns
import Verif.Proofs.ExplainMore
import Verif.Proofs.ExplainRules
import Verif.Proofs.Extend
import Verif.Proofs.HalfJoin
import Verif.Proofs.HalfJoin2
import Verif.Proofs.History
import Verif.Proofs.Identifiers
import Verif.Proofs.IdentifiersRun
import Verif.Proofs.Import
import Verif.Proofs.Iterate
import Verif.Proofs.JoinAlgebra
import Verif.Proofs.JoinBuilder
import Verif.Proofs.JoinIter
import Verif.Proofs.JoinQueue
import Verif.Proofs.JoinRun
import Verif.Proofs.Lattice
import Verif.Proofs.Lists
import Verif.Proofs.LookupMap
import Verif.Proofs.Lower
import Verif.Proofs.LowerAccept
import Verif.Proofs.LowerClosed
import Verif.Proofs.LowerDecide
import Verif.Proofs.LowerItems
import Verif.Proofs.LowerOkOrder
import Verif.Proofs.LowerOrder
import Verif.Proofs.LowerScope
import Verif.Proofs.LowerTotal
import Verif.Proofs.LowerTree
import Verif.Proofs.LowerWF
import Verif.Proofs.MergeBatcher
import Verif.Proofs.NavChunk
import Verif.Proofs.OrdKey
import Verif.Proofs.OrdKeySpine
import Verif.Proofs.OrdVal
import Verif.Proofs.OrdValBuild
import Verif.Proofs.OrdValMerge
import Verif.Proofs.OrdValSpine
import Verif.Proofs.Pipe
import Verif.Proofs.PipeApplicative
import Verif.Proofs.PipeLex
import Verif.Proofs.PointStamp
import Verif.Proofs.PrefixSum
import Verif.Proofs.PrefixSumFlow
import Verif.Proofs.PrefixSumRun
import Verif.Proofs.Propagate
import Verif.Proofs.PropagateRun
import Verif.Proofs.ProxyJoin
import Verif.Proofs.ProxyKey
import Verif.Proofs.ProxyLoad
import Verif.Proofs.ProxyRetire
import Verif.Proofs.ProxyRounds
import Verif.Proofs.Recipe
import Verif.Proofs.Reduce
import Verif.Proofs.ReduceInv
import Verif.Proofs.ReduceLoop
import Verif.Proofs.ReduceOp
import Verif.Proofs.ReduceRun
import Verif.Proofs.ReduceStep
import Verif.Proofs.ReferenceKey
import Verif.Proofs.ReferenceTimes
import Verif.Proofs.Reverse
import Verif.Proofs.ReverseFuel
import Verif.Proofs.ReverseOrder
import Verif.Proofs.ReverseRun
import Verif.Proofs.ReverseSpec
import Verif.Proofs.ReverseTyped
import Verif.Proofs.Scalar
import Verif.Proofs.ScalarOrder
import Verif.Proofs.ScalarReduce
import Verif.Proofs.Scc
import Verif.Proofs.SccGraph
import Verif.Proofs.SccRun
import Verif.Proofs.ScopeIr
import Verif.Proofs.ScopeIrOpt
import Verif.Proofs.ScopeIrPass
import Verif.Proofs.Sequential
import Verif.Proofs.SequentialFlow
import Verif.Proofs.Server
import Verif.Proofs.ServerPeek
import Verif.Proofs.ServerRun
import Verif.Proofs.Shapes
import Verif.Proofs.Source
import Verif.Proofs.SourceFlow
import Verif.Proofs.Spill
import Verif.Proofs.SpillMerge
import Verif.Proofs.SpillRun
import Verif.Proofs.Spine
import Verif.Proofs.SpineIntro
import Verif.Proofs.SpineLayers
import Verif.Proofs.SpineRun
import Verif.Proofs.Static
import Verif.Proofs.Surface
import Verif.Proofs.SurfaceKnown
import Verif.Proofs.Synchronous
import Verif.Proofs.Tile
import Verif.Proofs.TimeOrd
import Verif.Proofs.TotalOps
import Verif.Proofs.TraceCursor
import Verif.Proofs.TrieAlign
import Verif.Proofs.TrieChunker
import Verif.Proofs.TrieCut
import Verif.Proofs.TrieMerge
import Verif.Proofs.TrieMerged
import Verif.Proofs.TriePair
import Verif.Proofs.TrieSuffix
import Verif.Proofs.TrieWrite
import Verif.Proofs.TwoPhase
import Verif.Proofs.Upsert
import Verif.Proofs.UpsertRun
import Verif.Proofs.VecCursor
import Verif.Proofs.VecLinear
import Verif.Proofs.Wrappers
import Verif.Props.Agent
import Verif.Props.Applicative
import Verif.Props.Arrange
import Verif.Props.Arranged
import Verif.Props.BatchContainer
import Verif.Props.Bfs
import Verif.Props.Bijkstra
import Verif.Props.Capture
import Verif.Props.Chunk
import Verif.Props.ChunkCursor
import Verif.Props.ChunkHarness
import Verif.Props.ChunkHarnessSpine
import Verif.Props.ChunkSpine
import Verif.Props.Clone
import Verif.Props.ColCollection
import Verif.Props.Coll
import Verif.Props.Columnar
import Verif.Props.Consolidation
import Verif.Props.Containers
import Verif.Props.Cursor
import Verif.Props.Delta
import Verif.Props.Difference
import Verif.Props.Dynamic
import Verif.Props.Explain
import Verif.Props.Extend
import Verif.Props.HalfJoin
import Verif.Props.HalfJoin2
import Verif.Props.History
import Verif.Props.Identifiers
import Verif.Props.Import
import Verif.Props.Input
import Verif.Props.Iterate
import Verif.Props.JoinOp
import Verif.Props.Lattice
import Verif.Props.Linear
import Verif.Props.LookupMap
import Verif.Props.Lower
import Verif.Props.MergeBatcher
import Verif.Props.NavChunk
import Verif.Props.OrdKey
import Verif.Props.OrdVal
import Verif.Props.Pipe
import Verif.Props.PrefixSum
import Verif.Props.Propagate
import Verif.Props.ProxyJoin
import Verif.Props.ProxyReduce
import Verif.Props.Recipe
import Verif.Props.Reduce
import Verif.Props.ReduceOp
import Verif.Props.ReduceReference
import Verif.Props.Reverse
import Verif.Props.ReverseTyped
import Verif.Props.Scalar
import Verif.Props.Scc
import Verif.Props.ScopeIr
import Verif.Props.Sequential
import Verif.Props.Server
import Verif.Props.Shapes
import Verif.Props.Source
import Verif.Props.Spill
import Verif.Props.Spine
import Verif.Props.Surface
import Verif.Props.Tile
import Verif.Props.TotalOps
import Verif.Props.TraceCursor
import Verif.Props.TrieMerger
import Verif.Props.Upsert
import Verif.Props.Wrappers
import Verif.Spec.Agent
import Verif.Spec.Applicative
import Verif.Spec.Arrange
import Verif.Spec.Arranged
import Verif.Spec.Basic
import Verif.Spec.Batch
import Verif.Spec.Capture
import Verif.Spec.Chunk
import Verif.Spec.ChunkContract
import Verif.Spec.Clone
import Verif.Spec.ColCollection
import Verif.Spec.Columnar
import Verif.Spec.Cursor
import Verif.Spec.CursorContract
import Verif.Spec.Dataflow
import Verif.Spec.Delta
import Verif.Spec.Dynamic
import Verif.Spec.Explain
import Verif.Spec.Extend
import Verif.Spec.Graph
import Verif.Spec.HalfJoin
import Verif.Spec.HalfJoin2
import Verif.Spec.History
import Verif.Spec.Identifiers
import Verif.Spec.Import
import Verif.Spec.Iterate
import Verif.Spec.JoinOp
import Verif.Spec.LookupMap
import Verif.Spec.Lower
import Verif.Spec.LowerOk
import Verif.Spec.NavContract
import Verif.Spec.Pipe
import Verif.Spec.PointStamp
import Verif.Spec.PrefixSum
import Verif.Spec.ProxyJoin
import Verif.Spec.ProxyReduce
import Verif.Spec.Recipe
import Verif.Spec.Reduce
import Verif.Spec.ReduceOp
import Verif.Spec.Reverse
import Verif.Spec.ReverseTyped
import Verif.Spec.Scalar
import Verif.Spec.ScopeIr
import Verif.Spec.Sequential
import Verif.Spec.Server
import Verif.Spec.Shapes
import Verif.Spec.Source
import Verif.Spec.Spill
import Verif.Spec.Spine
import Verif.Spec.Surface
import Verif.Spec.Tile
import Verif.Spec.TotalOps
import Verif.Spec.TraceCursor
import Verif.Spec.Upsert
