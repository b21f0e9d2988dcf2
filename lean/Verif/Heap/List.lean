import Verif.Heap.Threads
import Verif.List.Lemmas
/-
`rpds::List` (/repo/src/list/mod.rs) on the reference counted heap: the same functions as in `Verif/List/Model.lean`, with
every pointer operation spelled out.

The struct `List` itself lives outside the heap (in a variable or in another structure); its nodes are cells with the
label `nd` and the pointers `value` and, if it is not `None`, `next`.  The element cells can be of any kind.
-/
set_option autoImplicit false
namespace Rpds
namespace Heap

/-- `struct List` (list/mod.rs:108-115): pointers to the first node and to the last element. -/
structure HList where
  head : Option Addr
  last : Option Addr
  length : Nat
  deriving DecidableEq, Repr

/-- The pointers in a `List`. -/
def HList.ptrs (l : HList) : List Addr := l.head.toList ++ l.last.toList

/-- Pointer fields of a `Node` as the pointers of a cell (list/mod.rs:117-124). -/
def nodePtrs (value : Addr) (next : Option Addr) : List Addr := value :: next.toList

/-- Dropping an `Option<SharedPointer<..>>`. -/
def dropOpt {L : Type} : Option Addr → Prog L Unit
  | none => .ret ()
  | some p => drop p

/-- Cloning an `Option<SharedPointer<..>>`. -/
def cloneOpt {L : Type} : Option Addr → Prog L Unit
  | none => .ret ()
  | some p => clone p

namespace HList
variable {L : Type}

/-- `List::new_with_ptr_kind` (list/mod.rs:156-158). -/
def new : HList := { head := none, last := none, length := 0 }

/-- `Clone for List` (list/mod.rs:342-344). -/
def clone (l : HList) : Prog L HList := do
  cloneOpt l.head
  cloneOpt l.last
  pure { head := l.head, last := l.last, length := l.length }

/-- Reads a node: its value and next pointers. -/
def readNode (p : Addr) : Prog L (Addr × Option Addr) := do
  match ← read p with
  | (_, [value]) => pure (value, none)
  | (_, [value, next]) => pure (value, some next)
  | _ => .panic

/-- `List::first` (list/mod.rs:161-163), answering a borrowed pointer to the element. -/
def first (l : HList) : Prog L (Option Addr) :=
  match l.head with
  | none => pure none
  | some p => do
    let (value, _) ← readNode p
    pure (some value)

/-- `List::drop_first_mut` (list/mod.rs:177-188). -/
def dropFirstMut (l : HList) : Prog L (Bool × HList) :=
  match l.head with
  | none => pure (false, { l with head := none })
  | some h => do
    let (_, next) ← readNode h
    cloneOpt next
    match csub l.length 1 with
    | .error _ => .panic
    | .ok length => do
      let last ← (if length == 0 then do dropOpt l.last; pure none else pure l.last)
      drop h
      pure (true, { head := next, last, length })

/-- Dropping a `List`: the loop of `Drop for List` (list/mod.rs:404-420), then the field `last`.  In the first case the
node is moved out of its cell and its value is dropped at the end of the arm; in the other case the pointer is
dropped by the `match`.  `fuel` bounds the number of rounds; running out of it is excluded by the theorems. -/
def dropLoop : (fuel : Nat) → (head : Option Addr) → Prog L Unit
  | _, none => .ret ()
  | 0, some _ => .panic
  | fuel + 1, some node => do
    match ← tryTake node with
    | some (_, [value]) => do
      drop value
      dropLoop fuel none
    | some (_, [value, next]) => do
      drop value
      dropLoop fuel (some next)
    | some _ => .panic
    | none => drop node

/-- Dropping a `List`. -/
def dropList (l : HList) : Prog L Unit := do
  dropLoop l.length l.head
  dropOpt l.last

/-- `List::drop_first` (list/mod.rs:171-175). -/
def dropFirst (l : HList) : Prog L (Option HList) := do
  let new_list ← l.clone
  let (b, new_list) ← new_list.dropFirstMut
  if b then pure (some new_list) else do
    dropList new_list
    pure none

/-- `List::push_front_ptr_mut` (list/mod.rs:190-199). -/
def pushFrontPtrMut (nd : L) (l : HList) (v : Addr) : Prog L HList := do
  let last ← (if l.length == 0 then do
    Heap.clone v
    dropOpt l.last
    pure (some v) else pure l.last)
  let head ← Heap.new nd (nodePtrs v l.head)
  pure { head := some head, last, length := l.length + 1 }

/-- `List::push_front_mut` (list/mod.rs:210-212); the new element cell has label `lv` and no pointers. -/
def pushFrontMut (nd : L) (l : HList) (lv : L) : Prog L HList := do
  let v ← Heap.new lv []
  l.pushFrontPtrMut nd v

/-- `List::push_front` (list/mod.rs:202-208). -/
def pushFront (nd : L) (l : HList) (lv : L) : Prog L HList := do
  let new_list ← l.clone
  new_list.pushFrontMut nd lv

/-- The `for` loop of `reverse` (list/mod.rs:222-224), over the remaining nodes (`IterPtr`). -/
def reverseLoop (nd : L) : (fuel : Nat) → (next : Option Addr) → HList → Prog L HList
  | _, none, new_list => pure new_list
  | 0, some _, _ => .panic
  | fuel + 1, some p, new_list => do
    let (value, next) ← readNode p
    Heap.clone value
    let new_list ← new_list.pushFrontPtrMut nd value
    reverseLoop nd fuel next new_list

/-- `List::reverse` (list/mod.rs:215-227). -/
def reverse (nd : L) (l : HList) : Prog L HList := reverseLoop nd l.length l.head new

/-- The `while let` loop of `reverse_mut` (list/mod.rs:235-243). -/
def reverseMutLoop : (fuel : Nat) → (prev current : Option Addr) → Prog L (Option Addr)
  | _, prev, none => pure prev
  | 0, _, some _ => .panic
  | fuel + 1, prev, some curr_ptr => do
    match ← makeMut curr_ptr with
    | (p, (l, [value])) => do
      close p l (nodePtrs value prev)
      reverseMutLoop fuel (some p) none
    | (p, (l, [value, curr_next])) => do
      close p l (nodePtrs value prev)
      reverseMutLoop fuel (some p) (some curr_next)
    | _ => .panic

/-- `List::reverse_mut` (list/mod.rs:229-246). -/
def reverseMut (l : HList) : Prog L HList := do
  let last ← (match l.head with
    | none => pure none
    | some p => do
      let (value, _) ← readNode p
      Heap.clone value
      pure (some value))
  dropOpt l.last
  let head ← reverseMutLoop l.length none l.head
  pure { head, last, length := l.length }

/-- `List::first_mut` and a write through the reference (list/mod.rs:276-280): `f` maps the content of the element
cell to the new label (the pointers in it stay). -/
def firstMutSet (f : L → L) (l : HList) : Prog L (Bool × HList) :=
  match l.head with
  | none => pure (false, l)
  | some node => do
    match ← makeMut node with
    | (p, (nl, value :: rest)) => do
      let (v, (lv, cs)) ← makeMut value
      close v (f lv) cs
      close p nl (v :: rest)
      pure (true, { l with head := some p })
    | _ => .panic

end HList
end Heap
end Rpds
