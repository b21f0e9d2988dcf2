import Verif.List.Model
/-
Model of `rpds::Queue` (/repo/src/queue/mod.rs): two lists, the second one in reverse.
-/
set_option autoImplicit false
namespace Rpds

/-- `struct Queue` (queue/mod.rs:97-103). -/
structure Queue (T : Type) where
  in_list : RList T
  out_list : RList T
  deriving DecidableEq, Repr

/-- `enum LazilyReversedListIter` (queue/mod.rs:298-304). -/
inductive LazyRevIter (T : Type) where
  | uninitialized (list : RList T)
  | initialized (vec : List T) (current : Option Nat)

namespace LazyRevIter
variable {T : Type}

/-- `LazilyReversedListIter::new` (queue/mod.rs:310-312). -/
def new (l : RList T) : LazyRevIter T := .uninitialized l

/-- The `Initialized` arm of `next` (queue/mod.rs:339-349). -/
def stepInit (vec : List T) (current : Option Nat) : Res (Option T × LazyRevIter T) := do
  let v ← match current with
    | some i => do
      let x ← vecIndex vec i
      pure (some x)
    | none => pure none
  let current := match current with
    | some 0 => none
    | some (i + 1) => some i
    | none => none
  pure (v, .initialized vec current)

/-- `Iterator::next for LazilyReversedListIter` (queue/mod.rs:321-351). -/
def step : LazyRevIter T → Res (Option T × LazyRevIter T)
  | .uninitialized list => do
    let len := list.len
    let vec ← iterFold ListIter.step (fun vec v => .ok (vec ++ [v])) (list.length + 1) list.iter []
    let current ← if len > 0 then do
        let c ← csub len 1
        pure (some c)
      else pure none
    stepInit vec current
  | .initialized vec current => stepInit vec current

/-- `size_hint` (queue/mod.rs:353-361). -/
def sizeHint : LazyRevIter T → Nat
  | .uninitialized list => list.len
  | .initialized _ (some i) => i + 1
  | .initialized _ none => 0

end LazyRevIter

/-- std's `Chain { a: Option<A>, b: Option<B> }` for the two iterators of a queue (queue/mod.rs:186-188).  `b` is never
cleared by `next`, so it is not optional here. -/
structure QueueIter (T : Type) where
  a : Option (ListIter T)
  b : LazyRevIter T

namespace QueueIter
variable {T : Type}

/-- std `Chain::next`: take from `a`; once it is exhausted drop it and take from `b`. -/
def step (it : QueueIter T) : Res (Option T × QueueIter T) := do
  match it.a with
  | some a => do
    let (x, a') ← a.step
    match x with
    | some v => pure (some v, { it with a := some a' })
    | none => do
      let (y, b') ← it.b.step
      pure (y, { a := none, b := b' })
  | none => do
    let (y, b') ← it.b.step
    pure (y, { a := none, b := b' })

/-- std `Chain::size_hint`: the sum. -/
def sizeHint (it : QueueIter T) : Nat :=
  match it.a with
  | some a => a.sizeHint + it.b.sizeHint
  | none => it.b.sizeHint

end QueueIter

namespace Queue
variable {T : Type}

/-- `Queue::new_with_ptr_kind` (queue/mod.rs:126-128), also `new`, `new_sync`, `default`. -/
def new : Queue T := { in_list := RList.new, out_list := RList.new }

/-- `Queue::peek` (queue/mod.rs:131-133). -/
def peek (q : Queue T) : Option T :=
  if !q.out_list.isEmpty then q.out_list.first else q.in_list.getLast

/-- `Queue::dequeue_mut` (queue/mod.rs:142-155). -/
def dequeueMut (q : Queue T) : Res (Bool × Queue T) :=
  if !q.out_list.isEmpty then do
    let (_, out_list) ← q.out_list.dropFirstMut
    pure (true, { q with out_list })
  else if !q.in_list.isEmpty then do
    let in_list := q.out_list
    let out_list := q.in_list
    let out_list := out_list.reverseMut
    let (_, out_list) ← out_list.dropFirstMut
    pure (true, { in_list, out_list })
  else pure (false, q)

/-- `Clone for Queue` (queue/mod.rs:251-253). -/
def clone (q : Queue T) : Queue T := { in_list := q.in_list.clone, out_list := q.out_list.clone }

/-- `Queue::dequeue` (queue/mod.rs:136-140). -/
def dequeue (q : Queue T) : Res (Option (Queue T)) := do
  let (b, new_queue) ← q.clone.dequeueMut
  pure (if b then some new_queue else none)

/-- `Queue::enqueue_mut` (queue/mod.rs:166-168). -/
def enqueueMut (q : Queue T) (v : T) : Queue T := { q with in_list := q.in_list.pushFrontMut v }

/-- `Queue::enqueue` (queue/mod.rs:158-164). -/
def enqueue (q : Queue T) (v : T) : Queue T := q.clone.enqueueMut v

/-- `Queue::len` (queue/mod.rs:172-174). -/
def len (q : Queue T) : Nat := q.in_list.len + q.out_list.len

/-- `Queue::is_empty` (queue/mod.rs:178-180). -/
def isEmpty (q : Queue T) : Bool := q.len == 0

/-- `Queue::iter` (queue/mod.rs:182-188). -/
def iter (q : Queue T) : QueueIter T := { a := some q.out_list.iter, b := LazyRevIter.new q.in_list }

/-- `PartialEq for Queue` (queue/mod.rs:205-207). -/
def eq (eqT : T → T → Bool) (a b : Queue T) : Res Bool :=
  if a.len == b.len then iterEq QueueIter.step QueueIter.step eqT (a.len + 1) a.iter b.iter else pure false

/-- `PartialOrd for Queue` (queue/mod.rs:217-219). -/
def partialCmp (cmp : T → T → Option Ordering) (a b : Queue T) : Res (Option Ordering) :=
  iterPartialCmp QueueIter.step QueueIter.step cmp (a.len + 1) a.iter b.iter

/-- `Ord for Queue` (queue/mod.rs:226-228). -/
def cmp (cmpT : T → T → Ordering) (a b : Queue T) : Res Ordering :=
  iterCmp QueueIter.step QueueIter.step cmpT (a.len + 1) a.iter b.iter

/-- `Hash for Queue` (queue/mod.rs:235-244). -/
def hash {S : Type} (hashUsize : S → Nat → S) (hashT : S → T → S) (q : Queue T) (state : S) : Res S :=
  iterHash QueueIter.step hashT (q.len + 1) q.iter (hashUsize state q.len)

/-- `Display for Queue` (queue/mod.rs:260-274). -/
def display (fmt : T → String) (q : Queue T) : Res String := do
  let out ← iterDisplay QueueIter.step fmt (q.len + 1) q.iter true "Queue("
  pure (out ++ ")")

/-- `FromIterator for Queue` (queue/mod.rs:293-295). -/
def fromIter (items : List T) : Queue T := { out_list := RList.fromIter items, in_list := RList.new }

/-- `queue!`/`queue_sync!` (queue/mod.rs:30-69). -/
def queueMacro (args : List T) : Queue T := args.foldl (fun q e => q.enqueueMut e) new

/-- `Serialize for Queue` (queue/mod.rs:377-379). -/
def serialize (q : Queue T) : Res (List T) := drain QueueIter.step (q.len + 1) q.iter

/-- `Deserialize for Queue` (queue/mod.rs:387-390). -/
def deserialize {E : Type} (seq : List (Except E T)) : Except E (Queue T) := do
  let list ← RList.deserialize seq
  pure { out_list := list, in_list := RList.new }

/-- The public operations of `Queue` on one version. -/
inductive Op (T : Type) where
  | enqueue (v : T)
  | enqueueMut (v : T)
  | dequeue
  | dequeueMut
  | clone
  | peek
  | len
  | isEmpty
  | iter (n : Nat)

/-- Runs one operation on one version. -/
def step (q : Queue T) : Op T → Res (RList.Ret T × Effect (Queue T))
  | .enqueue v => .ok (.unit, .fresh (q.enqueue v))
  | .enqueueMut v => .ok (.unit, .update (q.enqueueMut v))
  | .dequeue => do
    match ← q.dequeue with
    | some q' => pure (.bool true, .fresh q')
    | none => pure (.bool false, .keep)
  | .dequeueMut => do
    let (b, q') ← q.dequeueMut
    pure (.bool b, .update q')
  | .clone => .ok (.unit, .fresh q.clone)
  | .peek => .ok (.opt q.peek, .keep)
  | .len => .ok (.nat q.len, .keep)
  | .isEmpty => .ok (.bool q.isEmpty, .keep)
  | .iter n => do
    let cs ← fwCalls QueueIter.step QueueIter.sizeHint n q.iter
    pure (.calls q.iter.sizeHint cs, .keep)

end Queue
end Rpds
