import Verif.Basic
import Verif.ListLemmas
import Verif.Bits.Model
import Verif.Bits.Spec
import Verif.Bits.Lemmas
import Verif.Index
import Verif.IndexLemmas
import Verif.ConstFor
import Verif.Interface
import Verif.Iter
import Verif.IterLemmas
import Verif.IterTrace
import Verif.Ops.Model
import Verif.Ops.Lawful
import Verif.Ops.LawfulMI
import Verif.Ops.LawfulMU
import Verif.Dense.Model
import Verif.Dense.NodeLemmas
import Verif.MapSpec
import Verif.Content
import Verif.Dense.Heap
import Verif.Dense.Tree
import Verif.Dense.Insert
import Verif.Dense.Refine
import Verif.Dense.Remove
import Verif.Dense.Lawful
import Verif.Dense.Drop
import Verif.Dense.History
import Verif.Dense.Materialize
import Verif.Dense.MatLemmas
import Verif.Dense.MatExact
import Verif.Dense.MatSparse
import Verif.Dense.InPlace
import Verif.Sparse.Model
import Verif.Sparse.Rep
import Verif.Sparse.Insert
import Verif.Sparse.Refine
import Verif.Sparse.Remove
import Verif.Sparse.Lawful
import Verif.Sparse.Groups
import Verif.Sparse.History
import Verif.Sparse.Blocks
import Verif.TreeOf
import Verif.Props.Index
import Verif.Props.Bits
import Verif.Props.Tree
import Verif.Props.Dense
import Verif.Props.Sparse
import Verif.Props.Ops
import Verif.Props.Materialize
import Verif.Dense.Panic
import Verif.Dense.Stale
import Verif.Sparse.Panic
import Verif.Sparse.Stale
import Verif.Props.Panic
import Verif.Props.Equiv
import Verif.OrderSpec
import Verif.Props.Order
import Verif.Props.Readme
import Verif.Props.SparseVector
import Verif.Dense.Footprint
import Verif.Props.Footprint
import Verif.Dense.Cost
import Verif.Props.Cost
import Verif.Dense.MatE
import Verif.Dense.Oom
import Verif.Dense.OomMat
import Verif.Dense.MatFail
import Verif.Dense.Full
import Verif.Dense.Wrapped
import Verif.Dense.Weak
import Verif.Dense.WeakTree
import Verif.Dense.WeakHistory
import Verif.Props.Oom
import Verif.Typed.Model
import Verif.Typed.Sim
import Verif.Typed.Tree
import Verif.Props.Typed
import Verif.Bits.Generic
import Verif.Props.Queues
import Verif.Unwind
import Verif.Props.Unwind
import Verif.Ops.ValueIter
import Verif.Props.ValueIter
import Verif.Props.Custom
import Verif.Props.Trees
import Verif.Props.UserTree
import Verif.Props.Trace
import Verif.Props.Limits
import Verif.Small.Model
import Verif.Small.Lemmas
import Verif.Props.Blocks
import Verif.Props.Algebra
import Verif.Bytes.Model
import Verif.Bytes.Mem
import Verif.Bytes.Sim
import Verif.Bytes.Tree
import Verif.Bytes.Mat
import Verif.Bytes.Shared
import Verif.Bytes.Iter
import Verif.Props.Bytes
import Verif.Props.Shared
import Verif.Cluster.Model
import Verif.Cluster.Lemmas
import Verif.Props.Cluster
import Verif.Closures
import Verif.ClosuresLaw
import Verif.ClosuresSafe
import Verif.Props.Closures
import Verif.Levels
import Verif.Props.Levels
import Verif.ConstInt
import Verif.Props.ConstInt
import Verif.Sparse.Overflow
import Verif.Props.Overflow
import Verif.Sparse.Cost
import Verif.Props.SparseCost
import Verif.Props.Access
import Verif.Props.MatFail
import Verif.Props.MatGrow
import Verif.Props.Full
import Verif.Props.MatMasks
import Verif.Props.CondType
import Verif.Props.RepoTests
import Verif.Props.MatClosures
import Verif.Props.BlockOwn
import Verif.Props.Sources
import Verif.Dense.MatTrace
import Verif.Props.MatCost
import Verif.Builds.Model
import Verif.Builds.Le
import Verif.Builds.Trees
import Verif.Builds.Mat
import Verif.Props.Builds
import Verif.Wrong
import Verif.WrongOps
import Verif.WrongMulti
import Verif.Props.Wrong
import Verif.Dense.MatAny
import Verif.Dense.MatRec
import Verif.Dense.MatRec2
import Verif.Props.MatAgain
import Verif.Props.WrongIter
import Verif.Builds.Wrong
import Verif.Props.WrongBuilds
import Verif.Threads.Prog
import Verif.Threads.Model
import Verif.Threads.Refine
import Verif.Threads.Local
import Verif.Threads.Frozen
import Verif.Threads.Read
import Verif.Threads.Mat
import Verif.Threads.Multi
import Verif.Threads.At
import Verif.Threads.Panic
import Verif.IterBound
import Verif.Props.Threads
import Verif.Borrows
import Verif.Props.Borrows
import Verif.Alias.Model
import Verif.Alias.Lemmas
import Verif.Alias.Nodes
import Verif.Alias.Tree
import Verif.Alias.Read
import Verif.Alias.Mat
import Verif.Alias.Keep
import Verif.Props.Alias
import Verif.SAlias.Model
import Verif.SAlias.Lemmas
import Verif.SAlias.Ops
import Verif.SAlias.Change
import Verif.SAlias.Run
import Verif.Props.SAlias
import Verif.MAlias.Model
import Verif.MAlias.Lemmas
import Verif.MAlias.Select
import Verif.MAlias.Iterate
import Verif.MAlias.Cursor
import Verif.MAlias.Mat
import Verif.MAlias.Repair
import Verif.Props.MAlias
