import Verif.Arith
import Verif.Props.Linear
import Verif.Props.Vector
import Verif.Props.HashTrie
import Verif.Props.HashOrder
import Verif.Props.Split
import Verif.Props.RedBlack
import Verif.Props.Cross
import Verif.Props.Heap
import Verif.Props.HeapTrees
import Verif.Props.HeapHash
import Verif.Heap.PtrEq
import Verif.Props.PtrEq
import Verif.Props.Unlawful
import Verif.Props.Panic
import Verif.Props.Cost
import Verif.Props.HeapCost
import Verif.Props.Space
import Verif.Props.Shared
import Verif.Heap.Iterate
import Verif.Heap.IterLinear
import Verif.Heap.IterVector
import Verif.Heap.IterRedBlack
import Verif.Heap.IterHashTrie
import Verif.Heap.IterCost
import Verif.Heap.IterCostVector
import Verif.Props.Iterate
import Verif.Props.IterCost
import Verif.Heap.Nest
import Verif.List.Hints
import Verif.Props.Hints
import Verif.Debug
import Verif.Props.Debug
import Verif.Props.Nest
import Verif.Heap.InPlace
import Verif.Heap.InPlaceTrees
import Verif.Heap.InPlaceLinear
import Verif.Props.InPlace
import Verif.Sink
import Verif.Props.Sink
import Verif.Ask
import Verif.RedBlack.Ask
import Verif.RedBlack.AskCost
import Verif.HashTrie.Ask
import Verif.Props.Ask
import Verif.Props.Canonical
import Verif.Heap.Footprint
import Verif.Heap.Weights
import Verif.Props.Footprint
import Verif.Props.FootprintShared
import Verif.Heap.Counters
import Verif.Props.Counters
import Verif.Source
import Verif.Props.Source
import Verif.Props.PanicSets
import Verif.Heap.RedBlackPanic
import Verif.Heap.RedBlackPanicMap
import Verif.Props.PanicHeap
import Verif.HashTrie.Unwind
import Verif.Heap.HashTriePanic
import Verif.Heap.HashTriePanicMap
import Verif.Props.PanicHeapHash
import Verif.Props.PanicReplace
import Verif.Props.PanicVector
import Verif.Props.PanicLinear
import Verif.Props.Traits
import Verif.Props.Rejects
import Verif.Heap.NestLinear
import Verif.Props.NestLinear
import Verif.Props.Glue
import Verif.Props.RejectsSource
import Verif.Props.RejectsUser
import Verif.Props.RejectsPanic
import Verif.Props.RejectsReplace
import Verif.Props.RejectsMore
import Verif.HashTrie.DegreeOne
import Verif.Props.DegreeOne
import Verif.Upstream.Linear
import Verif.Upstream.Vector
import Verif.Upstream.HashTrie
import Verif.Upstream.HashSet
import Verif.Upstream.RedBlack
import Verif.Drop.RedBlack
import Verif.Drop.HashTrie
import Verif.Drop.Vector
import Verif.Drop.Finished
import Verif.Drop.List
import Verif.Props.DropPanic
import Verif.Props.DropLink
import Verif.Heap.Order
import Verif.Heap.OrderInv
import Verif.Heap.OrderSafe
import Verif.Heap.OrderRun
import Verif.Props.OrderShared
import Verif.Props.Order
