import Verif.Props.Heap
import Verif.Heap.Vector
import Verif.Heap.RedBlackSpec
/-
Persistence, exact reference counts and independence of threads (C42-C44) for the tree structures.
-/
set_option autoImplicit false
namespace Rpds
namespace Props
open Heap

/-! ### Vectors -/

/-- C42 for `Vector` with any valid `bits`, on any word size, with or without overflow checks.  The plain values are sequences of
at most `vecCap` items. -/
theorem C42_vector_persistent (T : Type) (Ar : Arch) (bits : Nat) (h0 : 0 < bits) (hW : bits < Ar.W) :
    Persistent (vecImpl Ar T bits) (vecCap Ar bits, ([] : List T)) Spec.vecStep :=
  persistent_of_refines fun A => vecImpl_refines Ar A h0 hW

/-- C43 for `Vector`. -/
theorem C43_vector_counts (T : Type) (Ar : Arch) (bits : Nat) (h0 : 0 < bits) (hW : bits < Ar.W) :
    CountsExact (vecImpl Ar T bits) (vecCap Ar bits, ([] : List T)) Spec.vecStep :=
  counts_of_refines fun A => vecImpl_refines Ar A h0 hW

/-- C44 for `VectorSync`. -/
theorem C44_vector_threads (T : Type) (Ar : Arch) (bits : Nat) (h0 : 0 < bits) (hW : bits < Ar.W) :
    ThreadsIndependent (vecImpl Ar T bits) (vecCap Ar bits, ([] : List T)) Spec.vecStep :=
  threads_of_refines fun A => vecImpl_refines Ar A h0 hW

/-- A vector of three elements with `bits = 1`, a clone, and the clone changed in place. -/
def exVecCmds : List (Cmd (RVector.Op Nat)) :=
  [.new, .run 0 (.pushBackMut 1), .run 0 (.pushBackMut 2), .run 0 (.pushBackMut 3), .run 0 .clone, .run 1 (.setMut 0 7),
    .run 0 (.get 0), .run 1 (.get 0)]

-- the hypothesis of C42-C44 holds for these commands
example : (pureClient (vecCap dbg64 1, []) Spec.vecStep [] exVecCmds).map (·.1) =
    .ok [none, some .unit, some .unit, some .unit, some .unit, some (.bool true), some (.opt (some 1)), some (.opt (some 7))] := by
  decide +kernel
-- on the heap the write copied the path to the first leaf (cells 6 and 7) and shares the rest
example : (outcome (bump _) 90 (client (vecImpl ⟨.debug, 64⟩ Nat 1) [] exVecCmds) []).map (·.2.1) =
    some [.closed 1 .leaf [1, 2], .closed 1 (.val 1) [], .closed 2 (.val 2) [], .closed 1 .branch [0, 5], .closed 1 (.val 3) [],
      .closed 2 .leaf [4], .closed 1 .branch [7, 5], .closed 1 .leaf [8, 2], .closed 1 (.val 7) []] := by
  decide +kernel
-- two threads, one writes to its vector while the other drops its own
example : interleaved (vecImpl ⟨.debug, 64⟩ Nat 1) 90 (exVecCmds.take 5)
    [[.run 0 (.setMut 0 7), .run 0 (.get 0)], [.discard 1]] (List.replicate 20 [0, 1]).flatten =
    some ([some [some (.bool true), some (.opt (some 7))], some [none]],
      [.closed 1 .leaf [7, 2], .free, .closed 1 (.val 2) [], .free, .closed 1 (.val 3) [], .closed 1 .leaf [4],
      .closed 1 .branch [0, 5], .closed 1 (.val 7) []]) := by
  rfl

/-! ### Red-black tree maps and sets -/

/-- C42 for `RedBlackTreeMap`, over any lawful key order. -/
theorem C42_rb_map_persistent (K V Q : Type) (Ar : Arch) (o : OrdKeys K Q) (lo : o.Lawful) :
    Persistent (rbImpl Ar o) ([] : List (K × V)) (Spec.ordMapStep Ar.W o) :=
  persistent_of_refines fun A => rbImpl_refines Ar lo A

/-- C42 for `RedBlackTreeSet`. -/
theorem C42_rb_set_persistent (T Q : Type) (Ar : Arch) (o : OrdKeys T Q) (lo : o.Lawful) :
    Persistent (rbSetImpl Ar o) ([] : List T) (Spec.ordSetStep Ar.W o) :=
  persistent_of_refines fun A => rbSetImpl_refines Ar lo A

/-- C43 for `RedBlackTreeMap`. -/
theorem C43_rb_map_counts (K V Q : Type) (Ar : Arch) (o : OrdKeys K Q) (lo : o.Lawful) :
    CountsExact (rbImpl Ar o) ([] : List (K × V)) (Spec.ordMapStep Ar.W o) :=
  counts_of_refines fun A => rbImpl_refines Ar lo A

/-- C43 for `RedBlackTreeSet`. -/
theorem C43_rb_set_counts (T Q : Type) (Ar : Arch) (o : OrdKeys T Q) (lo : o.Lawful) :
    CountsExact (rbSetImpl Ar o) ([] : List T) (Spec.ordSetStep Ar.W o) :=
  counts_of_refines fun A => rbSetImpl_refines Ar lo A

/-- C44 for `RedBlackTreeMapSync`. -/
theorem C44_rb_map_threads (K V Q : Type) (Ar : Arch) (o : OrdKeys K Q) (lo : o.Lawful) :
    ThreadsIndependent (rbImpl Ar o) ([] : List (K × V)) (Spec.ordMapStep Ar.W o) :=
  threads_of_refines fun A => rbImpl_refines Ar lo A

/-- C44 for `RedBlackTreeSetSync`. -/
theorem C44_rb_set_threads (T Q : Type) (Ar : Arch) (o : OrdKeys T Q) (lo : o.Lawful) :
    ThreadsIndependent (rbSetImpl Ar o) ([] : List T) (Spec.ordSetStep Ar.W o) :=
  threads_of_refines fun A => rbSetImpl_refines Ar lo A

/-- A map of three entries; the smallest removed from a new version; the greatest changed in place in the old one. -/
def exRBCmds : List (Cmd (RBOp (Nat × String) Nat Nat)) :=
  [.new, .run 0 (.base (.insertMut (1, "a") 10)), .run 0 (.base (.insertMut (2, "b") 20)), .run 0 (.base (.insertMut (3, "c") 30)),
    .run 0 (.base (.remove 1)), .run 0 (.base (.getMut 3 (· + 1))), .run 0 (.iter [.front, .back, .front]),
    .run 1 (.range (.excluded 2) .unbounded [.back, .back]), .run 1 .first]

-- the hypothesis of C42-C44 holds for these commands
example : (pureClient [] (Spec.ordMapStep 64 exOrd) [] exRBCmds).map (·.1) =
    .ok [none, some (.base .unit), some (.base .unit), some (.base .unit), some (.base .unit), some (.base (.optV (some 30))),
      some (.calls 3 [(some ((1, "a"), 10), 2), (some ((3, "c"), 31), 1), (some ((2, "b"), 20), 0)]),
      some (.items [some ((3, "c"), 30), none]), some (.base (.optKV (some ((2, "b"), 20))))] := by
  decide +kernel
-- on the heap the two versions share the entry of the key 2 (cell 2, with count 2)
example : (outcome (bump _) 400 (client (rbImpl ⟨.debug, 64⟩ exOrd) [] exRBCmds) []).map (·.2.1) =
    some [.closed 1 (.entry (1, "a") 10) [], .closed 1 (.node .black true true) [2, 3, 5], .closed 2 (.entry (2, "b") 20) [],
      .closed 1 (.node .black false false) [0], .closed 1 (.entry (3, "c") 30) [], .closed 1 (.node .black false false) [9],
      .closed 1 (.node .black false true) [2, 8], .free, .closed 1 (.node .red false false) [4],
      .closed 1 (.entry (3, "c") 31) []] := by
  decide +kernel
-- two threads, one writes to its map while the other drops its own
set_option synthInstance.maxSize 1000 in
example : interleaved (rbImpl ⟨.debug, 64⟩ exOrd) 300 (exRBCmds.take 5)
    [[.run 0 (.base (.insertMut (2, "z") 7)), .run 0 (.base (.get 2))], [.discard 1]] (List.replicate 40 [0, 1]).flatten =
    some ([some [some (.base .unit), some (.base (.optV (some 7)))], some [none]],
      [.closed 1 (.entry (1, "a") 10) [], .closed 1 (.node .black true true) [9, 3, 5], .free,
      .closed 1 (.node .black false false) [0], .closed 1 (.entry (3, "c") 30) [], .closed 1 (.node .black false false) [4],
      .free, .free, .free, .closed 1 (.entry (2, "z") 7) []]) := by
  decide +kernel
-- sets
example : (pureClient [] (Spec.ordSetStep 64 exOrd) [] [.new, .run 0 (.base (.insertMut (5, "e"))), .run 0 (.base (.insert (3, "c"))),
    .run 1 (.iter [.front, .front]), .run 0 (.base (.contains 3)), .run 1 (.range (.included 5) (.excluded 4) [])]).map (·.1) =
    .ok [none, some (.base .unit), some (.base .unit), some (.calls 2 [(some (3, "c"), 1), (some (5, "e"), 0)]),
      some (.base (.bool false)), some .panicked] := by
  decide +kernel

end Props
end Rpds
