import Verif.Heap.Linear
import Verif.Heap.System
/-
The project's own tests of lists, stacks and queues (/repo/src/{list,stack,queue}/test.rs), run on the model.  They pass on the code, so a
model on which one failed would be wrong; that they pass proves nothing about other inputs.  Elements that are strings there are numbers here
where nothing depends on it, and NAN is a value that compares with nothing.  Tests that only compare pointer kinds (`*_pointer_kind_consistent`) have no
counterpart: the model has one kind.
-/
set_option autoImplicit false
namespace Rpds
namespace Upstream

/-- Nothing panics and all assertions hold. -/
abbrev Passes (test : Res (List Bool)) : Prop := test.map (·.all id) = .ok true

/-- `assert!` of something that must not panic, inside a test. -/
def unwrap {α : Type} : Option α → Res α
  | none => .error .unwrapNone
  | some a => .ok a

/-- Partial comparison of floats; `none` is NAN. -/
def floatCmp : Option Nat → Option Nat → Option Ordering
  | some a, some b => some (compare a b)
  | _, _ => none

/-- A hasher that keeps all it is given. -/
def hashNat (s : List Nat) (n : Nat) : List Nat := n :: s

namespace List
open RList

-- iter::test_iter (with 64 in place of 1024)
example : Passes do
    let list := (List.range 64).foldl (fun l i => l.pushFrontMut i) RList.new
    return [(← list.serialize) == (List.range 64).reverse] := by decide +kernel
-- iter::test_iter_size_hint
example : Passes do
    let list := RList.listMacro [0, 1, 2]
    let i0 := list.iter
    let (_, i1) ← i0.step
    let (_, i2) ← i1.step
    let (_, i3) ← i2.step
    return [i0.sizeHint == 3, i1.sizeHint == 2, i2.sizeHint == 1, i3.sizeHint == 0] := by decide +kernel
-- iter::test_into_iterator
example : Passes do return [(← (RList.listMacro [0, 1, 2, 3]).serialize) == [0, 1, 2, 3]] := by decide +kernel
-- test_new, test_default
example : Passes do
    let l : RList Nat := RList.new
    return [l.first.isNone, l.len == 0, l.isEmpty] := by decide +kernel
-- test_macro_list
example : Passes do
    let list_1 := RList.new.pushFrontMut 1
    let list_1_2_3 := ((RList.new.pushFrontMut 3).pushFrontMut 2).pushFrontMut 1
    return [← RList.eq Nat.beq RList.new (RList.listMacro []), ← RList.eq Nat.beq list_1 (RList.listMacro [1]),
      ← RList.eq Nat.beq list_1_2_3 (RList.listMacro [1, 2, 3])] := by decide +kernel
-- test_first, test_last
example : Passes do
    let empty_list : RList Nat := RList.new
    let singleton_list := RList.listMacro [7]
    let list := RList.listMacro [0, 1, 2, 3]
    let (_, dropped) ← singleton_list.dropFirstMut
    return [empty_list.first == none, singleton_list.first == some 7, list.first == some 0, empty_list.getLast == none,
      singleton_list.getLast == some 7, list.getLast == some 3, dropped.getLast == none] := by decide +kernel
-- test_first_mut
example : Passes do
    let a := RList.listMacro [0, 1, 2, 3]
    let b := a.clone
    let b ← unwrap (b.firstMutSet fun _ => 9)
    return [a.first == some 0, b.first == some 9, (← a.serialize) == [0, 1, 2, 3], (← b.serialize) == [9, 1, 2, 3]] := by decide +kernel
-- test_drop_first
example : Passes do
    let empty_list : RList Nat := RList.new
    let singleton_list := RList.new.pushFront 7
    let list := (((RList.new.pushFront 3).pushFront 2).pushFront 1).pushFront 0
    let s ← unwrap (← singleton_list.dropFirst)
    let l ← unwrap (← list.dropFirst)
    return [empty_list.isEmpty, s.first == none, l.first == some 1, list.len == 4, l.len == 3] := by decide +kernel
-- test_drop_first_mut
example : Passes do
    let (_, empty_list) ← (RList.new : RList Nat).dropFirstMut
    let (_, singleton_list) ← (RList.listMacro [7]).dropFirstMut
    let (_, list) ← (RList.listMacro [0, 1, 2, 3]).dropFirstMut
    return [empty_list.isEmpty, singleton_list.first == none, list.first == some 1, list.len == 3] := by decide +kernel
-- test_reverse
example : Passes do
    let empty_list : RList Nat := RList.new
    let singleton_list := RList.new.pushFront 7
    let list := (((RList.new.pushFront 3).pushFront 2).pushFront 1).pushFront 0
    let list_reversed := (((RList.new.pushFront 0).pushFront 1).pushFront 2).pushFront 3
    return [← RList.eq Nat.beq (← empty_list.reverse) empty_list, (← empty_list.reverse).getLast == none,
      ← RList.eq Nat.beq (← singleton_list.reverse) singleton_list, (← singleton_list.reverse).getLast == some 7,
      ← RList.eq Nat.beq (← list.reverse) list_reversed, (← list.reverse).getLast == some 0] := by decide +kernel
-- test_reverse_mut
example : Passes do
    let empty_list := (RList.new : RList Nat).reverseMut
    let singleton_list := (RList.listMacro [7]).reverseMut
    let list := (RList.listMacro [0, 1, 2, 3]).reverseMut
    return [empty_list.getLast == none, singleton_list.getLast == some 7, list.getLast == some 0] := by decide +kernel
-- test_from_iterator
example : Passes do return [(← (RList.fromIter [10, 11, 12, 13]).serialize) == [10, 11, 12, 13]] := by decide +kernel
-- test_display
example : Passes do
    return [(← (RList.new : RList Nat).display toString) == "[]", (← (RList.listMacro ["hello"]).display id) == "[hello]",
      (← (RList.listMacro [0, 1, 2, 3]).display toString) == "[0, 1, 2, 3]"] := by decide +kernel
-- test_eq
example : Passes do
    let list_1 := RList.listMacro [1, 1]
    let list_1' := RList.listMacro [1, 1]
    let list_2 := RList.listMacro [1, 2]
    return [!(← RList.eq Nat.beq list_1 list_2), ← RList.eq Nat.beq list_1 list_1, ← RList.eq Nat.beq list_1 list_1',
      ← RList.eq Nat.beq list_2 list_2] := by decide +kernel
-- test_partial_ord, test_ord
example : Passes do
    let list_1 := RList.listMacro [some 1]
    let list_2 := RList.listMacro [some 2]
    let list_4 : RList (Option Nat) := RList.listMacro [none]
    let a := RList.listMacro [1]
    let b := RList.listMacro [2]
    return [(← RList.partialCmp floatCmp list_1 list_1) == some .eq, (← RList.partialCmp floatCmp list_1 list_2) == some .lt,
      (← RList.partialCmp floatCmp list_2 list_1) == some .gt, (← RList.partialCmp floatCmp list_1 list_4) == none,
      (← RList.cmp compare a a) == .eq, (← RList.cmp compare a b) == .lt, (← RList.cmp compare b a) == .gt] := by decide +kernel
-- test_hash
example : Passes do
    let h1 ← RList.hash hashNat hashNat (RList.listMacro [1]) []
    let h2 ← RList.hash hashNat hashNat (RList.listMacro [1, 2]) []
    return [h1 == (← RList.hash hashNat hashNat (RList.listMacro [1]) []), h1 != h2] := by decide +kernel
-- test_clone
example : Passes do
    let list := RList.listMacro [5, 6]
    let clone := list.clone
    return [(← clone.serialize) == (← list.serialize), clone.len == list.len, clone.getLast == list.getLast] := by decide +kernel
-- test_serde
example : Passes do
    let list := RList.listMacro [5, 6, 7, 8]
    match RList.deserialize (E := Unit) ((← list.serialize).map .ok) with
    | .error _ => return [false]
    | .ok decoded => return [← RList.eq Nat.beq list decoded] := by decide +kernel

end List

namespace Stack
open Rpds.Stack

-- iter::test_iter, iter::test_into_iterator, test_from_iterator
example : Passes do
    let stack := Stack.stackMacro [0, 1, 2, 3]
    return [(← stack.serialize) == [3, 2, 1, 0], (← (Stack.fromIter [10, 11, 12, 13]).serialize) == [10, 11, 12, 13]] := by decide +kernel
-- iter::test_iter_size_hint
example : Passes do
    let i0 := (Stack.stackMacro [0, 1, 2]).iter
    let (_, i1) ← i0.step
    let (_, i2) ← i1.step
    let (_, i3) ← i2.step
    return [i0.sizeHint == 3, i1.sizeHint == 2, i2.sizeHint == 1, i3.sizeHint == 0] := by decide +kernel
-- test_new, test_default
example : Passes do
    let s : Stack Nat := Stack.new
    return [s.list.isEmpty, s.size == 0, s.isEmpty, s.peek == none] := by decide +kernel
-- test_macro_stack
example : Passes do
    let stack_1 := Stack.new.pushMut 1
    let stack_1_2_3 := ((Stack.new.pushMut 1).pushMut 2).pushMut 3
    return [← Stack.eq Nat.beq Stack.new (Stack.stackMacro []), ← Stack.eq Nat.beq stack_1 (Stack.stackMacro [1]),
      ← Stack.eq Nat.beq stack_1_2_3 (Stack.stackMacro [1, 2, 3])] := by decide +kernel
-- test_peek, test_pop_mut
example : Passes do
    let empty_stack : Stack Nat := Stack.new
    let singleton_stack := Stack.stackMacro [7]
    let stack := Stack.stackMacro [3, 2, 1, 0]
    let (_, empty') ← empty_stack.popMut
    let (_, singleton') ← singleton_stack.popMut
    let (_, stack') ← stack.popMut
    return [empty_stack.peek == none, singleton_stack.peek == some 7, stack.peek == some 0, empty'.isEmpty, singleton'.peek == none,
      stack'.peek == some 1, stack'.size == 3] := by decide +kernel
-- test_pop
example : Passes do
    let empty_stack : Stack Nat := Stack.new
    let singleton_stack := Stack.new.push 7
    let stack := (((Stack.new.push 3).push 2).push 1).push 0
    let s ← unwrap (← singleton_stack.pop)
    let t ← unwrap (← stack.pop)
    return [(← empty_stack.pop).isNone, s.peek == none, t.peek == some 1, stack.size == 4, t.size == 3] := by decide +kernel
-- test_display
example : Passes do
    return [(← (Stack.new : Stack Nat).display toString) == "Stack()", (← (Stack.stackMacro ["hello"]).display id) == "Stack(hello)",
      (← (Stack.stackMacro [3, 2, 1, 0]).display toString) == "Stack(0, 1, 2, 3)"] := by decide +kernel
-- test_eq
example : Passes do
    let stack_1 := Stack.stackMacro [1, 1]
    let stack_2 := Stack.stackMacro [2, 1]
    return [!(← Stack.eq Nat.beq stack_1 stack_2), ← Stack.eq Nat.beq stack_1 stack_1,
      ← Stack.eq Nat.beq stack_1 (Stack.stackMacro [1, 1]), ← Stack.eq Nat.beq stack_2 stack_2] := by decide +kernel
-- test_partial_ord, test_ord
example : Passes do
    let stack_1 := Stack.stackMacro [some 1]
    let stack_2 := Stack.stackMacro [some 2]
    let a := Stack.stackMacro [1]
    let b := Stack.stackMacro [2]
    return [(← Stack.partialCmp floatCmp stack_1 stack_1) == some .eq, (← Stack.partialCmp floatCmp stack_1 stack_2) == some .lt,
      (← Stack.partialCmp floatCmp stack_2 stack_1) == some .gt, (← Stack.partialCmp floatCmp stack_1 (Stack.stackMacro [none])) == none,
      (← Stack.cmp compare a a) == .eq, (← Stack.cmp compare a b) == .lt, (← Stack.cmp compare b a) == .gt] := by decide +kernel
-- test_hash, test_clone, test_serde
example : Passes do
    let h1 ← Stack.hash hashNat hashNat (Stack.stackMacro [1]) []
    let h2 ← Stack.hash hashNat hashNat (Stack.stackMacro [1, 2]) []
    let stack := Stack.stackMacro [5, 6, 7, 8]
    let clone := stack.clone
    let b ← match Stack.deserialize (E := Unit) ((← stack.serialize).map .ok) with
      | .error _ => .ok false
      | .ok decoded => Stack.eq Nat.beq stack decoded
    return [h1 == (← Stack.hash hashNat hashNat (Stack.stackMacro [1]) []), h1 != h2, (← clone.serialize) == (← stack.serialize),
      clone.size == stack.size, b] := by decide +kernel

end Stack

namespace Queue

/-- `queue_2` of the tests: 0 and 1 enqueued, 0 dequeued, 2 and 3 enqueued. -/
def queue2 : Res (Queue Nat) := do
  let (_, q) ← ((Queue.new.enqueueMut 0).enqueueMut 1).dequeueMut
  return (q.enqueueMut 2).enqueueMut 3

/-- `queue_3` of the tests: 0 to 3 enqueued, 0 dequeued. -/
def queue3 : Res (Queue Nat) := do
  let (_, q) ← ((((Queue.new.enqueueMut 0).enqueueMut 1).enqueueMut 2).enqueueMut 3).dequeueMut
  return q

-- lazily_reversed_list_iter::test_iter and test_iter_size_hint
example : Passes do
    let i0 := LazyRevIter.new (RList.listMacro [0, 1, 2])
    let (a, i1) ← i0.step
    let (b, i2) ← i1.step
    let (c, i3) ← i2.step
    let (d, _) ← i3.step
    let e0 := LazyRevIter.new (RList.new : RList Nat)
    let (e, _) ← e0.step
    return [a == some 2, b == some 1, c == some 0, d == none, e == none, i0.sizeHint == 3, i1.sizeHint == 2, i2.sizeHint == 1,
      i3.sizeHint == 0, e0.sizeHint == 0] := by decide +kernel
-- iter::test_iter, test_iter_size_hint, test_into_iterator
example : Passes do
    let queue ← queue2
    let i0 := queue.iter
    let (a, i1) ← i0.step
    let (b, i2) ← i1.step
    let (c, i3) ← i2.step
    let (d, _) ← i3.step
    return [a == some 1, b == some 2, c == some 3, d == none, i0.sizeHint == 3, i1.sizeHint == 2, i2.sizeHint == 1, i3.sizeHint == 0] := by
  decide +kernel
-- internal::test_enqueue_dequeue_mut
example : Passes do
    let queue := Queue.queueMacro [0, 1, 2, 3]
    let queue_2 ← queue2
    let queue_3 ← queue3
    return [queue.out_list.isEmpty, ← RList.eq Nat.beq queue.in_list (RList.listMacro [3, 2, 1, 0]),
      ← RList.eq Nat.beq queue_2.out_list (RList.listMacro [1]), ← RList.eq Nat.beq queue_2.in_list (RList.listMacro [3, 2]),
      ← RList.eq Nat.beq queue_3.out_list (RList.listMacro [1, 2, 3]), queue_3.in_list.isEmpty] := by decide +kernel
-- test_new, test_default
example : Passes do
    let q : Queue Nat := Queue.new
    return [q.in_list.isEmpty, q.out_list.isEmpty, q.len == 0, q.isEmpty, q.peek == none] := by decide +kernel
-- test_macro_queue
example : Passes do
    let queue_1 := Queue.new.enqueueMut 1
    let queue_1_2_3 := ((Queue.new.enqueueMut 1).enqueueMut 2).enqueueMut 3
    return [← Queue.eq Nat.beq Queue.new (Queue.queueMacro []), ← Queue.eq Nat.beq queue_1 (Queue.queueMacro [1]),
      ← Queue.eq Nat.beq queue_1_2_3 (Queue.queueMacro [1, 2, 3])] := by decide +kernel
-- test_peek, test_dequeue_mut, test_dequeue_mut_maintains_len
example : Passes do
    let empty_queue : Queue Nat := Queue.new
    let singleton_queue := Queue.queueMacro [7]
    let queue := Queue.queueMacro [0, 1, 2, 3]
    let queue_2 ← queue2
    let queue_3 ← queue3
    let (_, e) ← empty_queue.dequeueMut
    let (_, s) ← singleton_queue.dequeueMut
    let (_, q) ← queue.dequeueMut
    let (_, q2) ← queue_2.dequeueMut
    let (_, q3) ← queue_3.dequeueMut
    return [empty_queue.peek == none, singleton_queue.peek == some 7, queue.peek == some 0, queue_2.peek == some 1, queue_3.peek == some 1,
      e.isEmpty, s.peek == none, q.peek == some 1, q2.peek == some 2, q3.peek == some 2, queue.len == 4, q.len == 3, queue_2.len == 3,
      q2.len == 2, queue_3.len == 3, q3.len == 2] := by decide +kernel
-- test_dequeue
example : Passes do
    let empty_queue : Queue Nat := Queue.new
    let singleton_queue := Queue.new.enqueue 7
    let queue := (((Queue.new.enqueue 0).enqueue 1).enqueue 2).enqueue 3
    let queue_2 := ((← unwrap (← ((Queue.new.enqueue 0).enqueue 1).dequeue)).enqueue 2).enqueue 3
    let queue_3 ← unwrap (← queue.dequeue)
    let s ← unwrap (← singleton_queue.dequeue)
    let q2 ← unwrap (← queue_2.dequeue)
    let q3 ← unwrap (← queue_3.dequeue)
    return [(← empty_queue.dequeue).isNone, s.peek == none, queue_3.peek == some 1, q2.peek == some 2, q3.peek == some 2, queue.len == 4,
      queue_3.len == 3, queue_2.len == 3, q2.len == 2, q3.len == 2] := by decide +kernel
-- test_from_iterator
example : Passes do return [(← (Queue.fromIter [10, 11, 12, 13]).serialize) == [10, 11, 12, 13]] := by decide +kernel
-- test_display
example : Passes do
    return [(← (Queue.new : Queue Nat).display toString) == "Queue()", (← (Queue.queueMacro ["hello"]).display id) == "Queue(hello)",
      (← (Queue.queueMacro [0, 1, 2, 3]).display toString) == "Queue(0, 1, 2, 3)"] := by decide +kernel
-- test_eq
example : Passes do
    let queue_1 := Queue.queueMacro [1, 1]
    let queue_2 := Queue.queueMacro [1, 2]
    return [!(← Queue.eq Nat.beq queue_1 queue_2), ← Queue.eq Nat.beq queue_1 queue_1,
      ← Queue.eq Nat.beq queue_1 (Queue.queueMacro [1, 1]), ← Queue.eq Nat.beq queue_2 queue_2] := by decide +kernel
-- test_partial_ord, test_ord
example : Passes do
    let queue_1 := Queue.queueMacro [some 1]
    let queue_2 := Queue.queueMacro [some 2]
    let a := Queue.queueMacro [1]
    let b := Queue.queueMacro [2]
    return [(← Queue.partialCmp floatCmp queue_1 queue_1) == some .eq, (← Queue.partialCmp floatCmp queue_1 queue_2) == some .lt,
      (← Queue.partialCmp floatCmp queue_2 queue_1) == some .gt, (← Queue.partialCmp floatCmp queue_1 (Queue.queueMacro [none])) == none,
      (← Queue.cmp compare a a) == .eq, (← Queue.cmp compare a b) == .lt, (← Queue.cmp compare b a) == .gt] := by decide +kernel
-- test_hash, test_clone, test_serde
example : Passes do
    let h1 ← Queue.hash hashNat hashNat (Queue.queueMacro [1]) []
    let h2 ← Queue.hash hashNat hashNat (Queue.queueMacro [1, 2]) []
    let queue := Queue.queueMacro [5, 6, 7, 8]
    let clone := queue.clone
    let b ← match Queue.deserialize (E := Unit) ((← queue.serialize).map .ok) with
      | .error _ => .ok false
      | .ok decoded => Queue.eq Nat.beq queue decoded
    return [h1 == (← Queue.hash hashNat hashNat (Queue.queueMacro [1]) []), h1 != h2, (← clone.serialize) == (← queue.serialize),
      clone.len == queue.len, b] := by decide +kernel

end Queue
end Upstream
end Rpds
