/-
The reference counted heap behind `archery::SharedPointer` (a dependency of /repo; `RcK` is `alloc::rc::Rc`, `ArcTK` is
`triomphe::Arc`), and programs that run on it, alone or interleaved with other threads.

A node of any of the data structures is a cell with a label (all of its plain data) and the list of the pointers stored
in it.  A cell is free, or closed (reachable through pointers, with its reference count), or opened (its content is
borrowed through `&mut`, by the only owner of the only pointer to it).

The atomic actions are the individual operations on reference counts and memory, so that interleavings of `Arc`
operations are covered at that granularity:

* `new`      `SharedPointer::new`
* `newOpen`  `SharedPointer::new` inside `make_mut`, whose content is borrowed mutably right away
* `clone`    `SharedPointer::clone`: one increment
* `read`     `Deref`
* `tryOpen`  the uniqueness test of `SharedPointer::make_mut`, when it succeeds the content is borrowed mutably
* `close`    end of that borrow, the content as it was left
* `tryTake`  `SharedPointer::try_unwrap`: the content is moved out if the pointer is unique
* dropping a pointer: one decrement; at zero the memory is freed and the pointers in the content are dropped in turn,
  each with its own decrement, nested one level deeper on the call stack (the drop glue generated by rustc).

Not modelled: `Weak` pointers (never created by /repo), overflow of the reference count (aborts in both pointer kinds).
Elements here are plain data, dropping one does nothing; `Heap/Late.lean` and `Heap/HashTriePanicMap.lean` have elements
whose `Drop` panics.  The steps of threads here are sequentially consistent; `Heap/Order.lean` has the memory orderings of `Arc`.
-/
set_option autoImplicit false
namespace Rpds
namespace Heap

/-- The address of a cell: its index in the heap. -/
abbrev Addr := Nat

/-- A memory cell. -/
inductive Cell (L : Type) where
  | free
  | opened
  | closed (count : Nat) (label : L) (ptrs : List Addr)
  deriving DecidableEq, Repr

/-- The pointers stored in a cell. -/
def Cell.refs {L : Type} : Cell L → List Addr
  | .closed _ _ cs => cs
  | _ => []

/-- The memory: cells by address; addresses beyond the end are free. -/
abbrev Mem (L : Type) := List (Cell L)

/-- The cell at an address. -/
def get {L : Type} (h : Mem L) (a : Addr) : Cell L := (h[a]?).getD .free

/-- Overwrites the cell at an address, growing the memory if needed. -/
def put {L : Type} : Mem L → Addr → Cell L → Mem L
  | [], 0, c => [c]
  | [], a + 1, c => .free :: put [] a c
  | _ :: h, 0, c => c :: h
  | d :: h, a + 1, c => d :: put h a c

/-- All pointers stored in closed cells, with repetitions. -/
def refs {L : Type} (h : Mem L) : List Addr := h.flatMap Cell.refs

/-- A memory allocator: any function that returns the address of some free cell. -/
structure Allocator (L : Type) where
  pick : Mem L → Addr
  fresh : ∀ h, get h (pick h) = .free

/-- What would be undefined behaviour or an abort in Rust. -/
inductive Fault where
  /-- access to a freed cell, or to a cell that is mutably borrowed -/
  | badAccess
  /-- the program panicked -/
  | panic
  deriving DecidableEq, Repr

/-- Content of a cell. -/
abbrev Content (L : Type) := L × List Addr

/-- Atomic actions. -/
inductive Act (L : Type) where
  | new (l : L) (cs : List Addr)
  | newOpen
  | clone (p : Addr)
  | read (p : Addr)
  | tryOpen (p : Addr)
  | close (p : Addr) (l : L) (cs : List Addr)
  | tryTake (p : Addr)

/-- What an action answers. -/
abbrev Resp {L : Type} : Act L → Type
  | .new _ _ => Addr
  | .newOpen => Addr
  | .clone _ => Unit
  | .read _ => Content L
  | .tryOpen _ => Option (Content L)
  | .close _ _ _ => Unit
  | .tryTake _ => Option (Content L)

/-- Effect of an atomic action. -/
def act {L : Type} (A : Allocator L) : (a : Act L) → Mem L → Except Fault (Resp a × Mem L)
  | .new l cs, h => .ok (A.pick h, put h (A.pick h) (.closed 1 l cs))
  | .newOpen, h => .ok (A.pick h, put h (A.pick h) .opened)
  | .clone p, h =>
    match get h p with
    | .closed n l cs => .ok ((), put h p (.closed (n + 1) l cs))
    | _ => .error .badAccess
  | .read p, h =>
    match get h p with
    | .closed _ l cs => .ok ((l, cs), h)
    | _ => .error .badAccess
  | .tryOpen p, h =>
    match get h p with
    | .closed n l cs => if n = 1 then .ok (some (l, cs), put h p .opened) else .ok (none, h)
    | _ => .error .badAccess
  | .close p l cs, h =>
    match get h p with
    | .opened => .ok ((), put h p (.closed 1 l cs))
    | _ => .error .badAccess
  | .tryTake p, h =>
    match get h p with
    | .closed n l cs => if n = 1 then .ok (some (l, cs), put h p .free) else .ok (none, h)
    | _ => .error .badAccess

/-- Dropping one pointer: decrement; at zero free the cell and answer the pointers it held. -/
def decr {L : Type} (p : Addr) (h : Mem L) : Except Fault (List Addr × Mem L) :=
  match get h p with
  | .closed n l cs => if n = 1 then .ok (cs, put h p .free) else .ok ([], put h p (.closed (n - 1) l cs))
  | _ => .error .badAccess

/-- A program of one thread. -/
inductive Prog (L : Type) (α : Type) where
  | ret (r : α)
  | panic
  | op (a : Act L) (k : Resp a → Prog L α)
  | drop (p : Addr) (k : Prog L α)

namespace Prog
variable {L α β : Type}

/-- Sequential composition. -/
def bind : Prog L α → (α → Prog L β) → Prog L β
  | .ret r, f => f r
  | .panic, _ => .panic
  | .op a k, f => .op a (fun x => bind (k x) f)
  | .drop p k, f => .drop p (bind k f)

instance : Monad (Prog L) where
  pure := .ret
  bind := bind

end Prog

/-- `SharedPointer::new`. -/
def new {L : Type} (l : L) (cs : List Addr) : Prog L Addr := .op (.new l cs) .ret
/-- `SharedPointer::new` of a content that is borrowed mutably right away. -/
def newOpen {L : Type} : Prog L Addr := .op .newOpen .ret
/-- `SharedPointer::clone`. -/
def clone {L : Type} (p : Addr) : Prog L Unit := .op (.clone p) .ret
/-- `Deref`. -/
def read {L : Type} (p : Addr) : Prog L (Content L) := .op (.read p) .ret
/-- The uniqueness test of `make_mut`. -/
def tryOpen {L : Type} (p : Addr) : Prog L (Option (Content L)) := .op (.tryOpen p) .ret
/-- End of a mutable borrow. -/
def close {L : Type} (p : Addr) (l : L) (cs : List Addr) : Prog L Unit := .op (.close p l cs) .ret
/-- `SharedPointer::try_unwrap`. -/
def tryTake {L : Type} (p : Addr) : Prog L (Option (Content L)) := .op (.tryTake p) .ret
/-- Dropping a pointer. -/
def drop {L : Type} (p : Addr) : Prog L Unit := .drop p (.ret ())

/-- Cloning several pointers, one after the other. -/
def cloneAll {L : Type} : List Addr → Prog L Unit
  | [] => .ret ()
  | c :: cs => Prog.bind (clone c) fun _ => cloneAll cs

/-- `SharedPointer::make_mut`: if the pointer is unique its content is borrowed, otherwise the content is cloned into a
new cell, which replaces the pointer, and the old pointer is dropped.  Answers the pointer and the borrowed content. -/
def makeMut {L : Type} (p : Addr) : Prog L (Addr × Content L) :=
  Prog.bind (tryOpen p) fun r =>
    match r with
    | some c => .ret (p, c)
    | none =>
      Prog.bind (read p) fun c =>
      Prog.bind (cloneAll c.2) fun _ =>
      Prog.bind newOpen fun q =>
      Prog.bind (drop p) fun _ => .ret (q, c)

/-- A thread: the pointers that are being dropped, each with the nesting depth of the destructor that drops it; the
deepest nesting so far; and the rest of its program. -/
structure Thread (L : Type) (α : Type) where
  pending : List (Nat × Addr)
  deepest : Nat
  prog : Prog L α

/-- A thread that is about to run a program. -/
def Thread.start {L α : Type} (prog : Prog L α) : Thread L α := { pending := [], deepest := 0, prog }

/-- One atomic step of a thread.  A finished thread stays as it is. -/
def Thread.step {L α : Type} (A : Allocator L) (th : Thread L α) (h : Mem L) : Except Fault (Thread L α × Mem L) :=
  match th.pending with
  | (d, p) :: ps =>
    match decr p h with
    | .error e => .error e
    | .ok (cs, h') =>
      .ok ({ th with pending := cs.map (fun c => (d + 1, c)) ++ ps, deepest := max th.deepest d }, h')
  | [] =>
    match th.prog with
    | .ret r => .ok ({ th with prog := .ret r }, h)
    | .panic => .error .panic
    | .drop p k => .ok ({ th with pending := [(0, p)], prog := k }, h)
    | .op a k =>
      match act A a h with
      | .error e => .error e
      | .ok (x, h') => .ok ({ th with prog := k x }, h')

/-- The result of a finished thread. -/
def Thread.result {L α : Type} (th : Thread L α) : Option α :=
  match th.pending, th.prog with
  | [], .ret r => some r
  | _, _ => none

/-- Several threads over one memory; `schedule` lists which thread makes each step (numbers of no thread are ignored). -/
def runThreads {L α : Type} (A : Allocator L) : (schedule : List Nat) → List (Thread L α) → Mem L →
    Except Fault (List (Thread L α) × Mem L)
  | [], ths, h => .ok (ths, h)
  | i :: is, ths, h =>
    match ths[i]? with
    | none => runThreads A is ths h
    | some th =>
      match th.step A h with
      | .error e => .error e
      | .ok (th', h') => runThreads A is (ths.set i th') h'

/-- `n` steps of a thread that runs alone. -/
def runAlone {L α : Type} (A : Allocator L) : (n : Nat) → Thread L α → Mem L → Except Fault (Thread L α × Mem L)
  | 0, th, h => .ok (th, h)
  | n + 1, th, h =>
    match th.step A h with
    | .error e => .error e
    | .ok (th', h') => runAlone A n th' h'

end Heap
end Rpds
