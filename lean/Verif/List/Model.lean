import Verif.Iter
/-
Model of `rpds::List` (/repo/src/list/mod.rs).

`SharedPointer<T, P>` is modelled by the value pointed to; sharing, reference counts and `Drop` are in `Verif/Heap`.
The length is an unbounded `Nat` for `+ 1` (a list has one heap node per element, so `usize` cannot overflow); the
decrements are checked.
-/
set_option autoImplicit false
namespace Rpds

/-- `Option<SharedPointer<Node<T, P>, P>>` with `Node { value, next }` (list/mod.rs:117-124). -/
inductive Link (T : Type) where
  | none
  | some (value : T) (next : Link T)
  deriving DecidableEq, Repr

/-- `struct List` (list/mod.rs:108-115). -/
structure RList (T : Type) where
  head : Link T
  last : Option T
  length : Nat
  deriving DecidableEq, Repr

namespace RList
variable {T : Type}

/-- `List::new_with_ptr_kind` (list/mod.rs:156-158), also `new`, `new_sync`, `default` (138-149, 287-289). -/
def new : RList T := { head := .none, last := none, length := 0 }

/-- `List::first` (list/mod.rs:161-163). -/
def first (l : RList T) : Option T :=
  match l.head with
  | .none => none
  | .some v _ => some v

/-- `List::last` (list/mod.rs:166-168). -/
def getLast (l : RList T) : Option T := l.last

/-- `List::drop_first_mut` (list/mod.rs:177-188). -/
def dropFirstMut (l : RList T) : Res (Bool × RList T) :=
  match l.head with
  | .none => .ok (false, { l with head := .none })
  | .some _ next => do
    let length ← csub l.length 1
    let last := if length == 0 then none else l.last
    .ok (true, { head := next, last, length })

/-- `Clone for List` (list/mod.rs:342-344). -/
def clone (l : RList T) : RList T := { head := l.head, last := l.last, length := l.length }

/-- `List::drop_first` (list/mod.rs:171-175). -/
def dropFirst (l : RList T) : Res (Option (RList T)) := do
  let (b, new_list) ← l.clone.dropFirstMut
  pure (if b then some new_list else none)

/-- `List::push_front_ptr_mut` (list/mod.rs:190-199). -/
def pushFrontPtrMut (l : RList T) (v : T) : RList T :=
  let last := if l.length == 0 then some v else l.last
  { head := .some v l.head, last, length := l.length + 1 }

/-- `List::push_front_mut` (list/mod.rs:210-212). -/
def pushFrontMut (l : RList T) (v : T) : RList T := l.pushFrontPtrMut v

/-- `List::push_front` (list/mod.rs:202-208). -/
def pushFront (l : RList T) (v : T) : RList T := l.clone.pushFrontMut v

/-- `List::len` (list/mod.rs:250-252). -/
def len (l : RList T) : Nat := l.length

/-- `List::is_empty` (list/mod.rs:256-258). -/
def isEmpty (l : RList T) : Bool := l.len == 0

end RList

/-- `struct IterPtr` (list/mod.rs:424-430); `Iter` only maps `borrow` over it. -/
structure ListIter (T : Type) where
  next : Link T
  length : Nat
  deriving DecidableEq, Repr

namespace ListIter
variable {T : Type}

/-- `IterPtr::new` (list/mod.rs:436-438). -/
def new (l : RList T) : ListIter T := { next := l.head, length := l.len }

/-- `Iterator::next for IterPtr` (list/mod.rs:447-456). -/
def step (it : ListIter T) : Res (Option T × ListIter T) :=
  match it.next with
  | .some v t => do
    let length ← csub it.length 1
    .ok (some v, { next := t, length })
  | .none => .ok (none, it)

/-- `size_hint` (list/mod.rs:458-460): lower and upper bound are both this. -/
def sizeHint (it : ListIter T) : Nat := it.length

end ListIter

namespace RList
variable {T : Type}

/-- `List::iter`/`iter_ptr` (list/mod.rs:260-267, 375-377). -/
def iter (l : RList T) : ListIter T := ListIter.new l

/-- `List::reverse` (list/mod.rs:215-227). -/
def reverse (l : RList T) : Res (RList T) :=
  iterFold ListIter.step (fun new_list v => .ok (new_list.pushFrontPtrMut v)) (l.length + 1) l.iter new

/-- The `while let` loop of `reverse_mut` (list/mod.rs:235-243). -/
def reverseLoop : (prev current : Link T) → Link T
  | prev, .none => prev
  | prev, .some v curr_next => reverseLoop (.some v prev) curr_next

/-- `List::reverse_mut` (list/mod.rs:229-246). -/
def reverseMut (l : RList T) : RList T :=
  let last := match l.head with
    | .none => none
    | .some v _ => some v
  { l with last, head := reverseLoop .none l.head }

/-- `List::first_mut` followed by a write through the reference (list/mod.rs:276-280).  `make_mut` on the value pointer
detaches it from the copy in `last`, so `last` keeps the old value (crate-internal, see DESIGN.md). -/
def firstMutSet (l : RList T) (f : T → T) : Option (RList T) :=
  match l.head with
  | .none => none
  | .some v next => some { l with head := .some (f v) next }

/-- `PartialEq for List` (list/mod.rs:297-299). -/
def eq (eqT : T → T → Bool) (a b : RList T) : Res Bool :=
  if a.length == b.length then iterEq ListIter.step ListIter.step eqT (a.length + 1) a.iter b.iter else pure false

/-- `PartialOrd for List` (list/mod.rs:309-311). -/
def partialCmp (cmp : T → T → Option Ordering) (a b : RList T) : Res (Option Ordering) :=
  iterPartialCmp ListIter.step ListIter.step cmp (a.length + 1) a.iter b.iter

/-- `Ord for List` (list/mod.rs:318-320). -/
def cmp (cmpT : T → T → Ordering) (a b : RList T) : Res Ordering :=
  iterCmp ListIter.step ListIter.step cmpT (a.length + 1) a.iter b.iter

/-- `Hash for List` (list/mod.rs:327-335) for a hasher with state `S`. -/
def hash {S : Type} (hashUsize : S → Nat → S) (hashT : S → T → S) (l : RList T) (state : S) : Res S :=
  iterHash ListIter.step hashT (l.length + 1) l.iter (hashUsize state l.len)

/-- `Display for List` (list/mod.rs:351-365). -/
def display (fmt : T → String) (l : RList T) : Res String := do
  let out ← iterDisplay ListIter.step fmt (l.length + 1) l.iter true "["
  pure (out ++ "]")

/-- `FromIterator for List` (list/mod.rs:384-400): the items are first collected into a `Vec`, then pushed
in reverse. -/
def fromIter (items : List T) : RList T :=
  let vec := items.foldl (fun vec e => vec ++ [e]) []
  vec.reverse.foldl (fun list e => list.pushFrontMut e) new

/-- `list_reverse!` (list/mod.rs:14-37): arguments still to be moved, and the arguments moved so far. -/
def listReverseMacro : (args reversed : List T) → RList T
  | [], reversed => reversed.foldl (fun l e => l.pushFrontMut e) new
  | h :: t, reversed => listReverseMacro t (h :: reversed)

/-- `list!`/`list_sync!` (list/mod.rs:52-79). -/
def listMacro (args : List T) : RList T := listReverseMacro args []

/-- `Serialize for List` (list/mod.rs:478-480): `collect_seq` emits the items of the iterator. -/
def serialize (l : RList T) : Res (List T) := drain ListIter.step (l.length + 1) l.iter

/-- The loop of `visit_seq` (list/mod.rs:520-522).  The input is the sequence of results of `next_element()`
up to the end of the sequence. -/
def visitLoop {E : Type} : List (Except E T) → List T → Except E (List T)
  | [], vec => .ok vec
  | .error e :: _, _ => .error e
  | .ok v :: seq, vec => visitLoop seq (vec ++ [v])

/-- `Deserialize for List` (list/mod.rs:488-531). -/
def deserialize {E : Type} (seq : List (Except E T)) : Except E (RList T) := do
  let vec ← visitLoop seq []
  pure (vec.reverse.foldl (fun list e => list.pushFrontMut e) new)

/-- The public operations of `List` on one version.  `iter n` creates an iterator, asks its size hint and
calls `next` `n` times. -/
inductive Op (T : Type) where
  | pushFront (v : T)
  | pushFrontMut (v : T)
  | dropFirst
  | dropFirstMut
  | reverse
  | reverseMut
  | clone
  | first
  | last
  | len
  | isEmpty
  | iter (n : Nat)

/-- Answers of operations. -/
inductive Ret (T : Type) where
  | unit
  | bool (b : Bool)
  | nat (n : Nat)
  | opt (o : Option T)
  | calls (hint : Nat) (cs : List (Option T × Nat))
  deriving DecidableEq, Repr

/-- Runs one operation on one version (each case calls the function above that models the method). -/
def step (l : RList T) : Op T → Res (Ret T × Effect (RList T))
  | .pushFront v => .ok (.unit, .fresh (l.pushFront v))
  | .pushFrontMut v => .ok (.unit, .update (l.pushFrontMut v))
  | .dropFirst => do
    match ← l.dropFirst with
    | some l' => pure (.bool true, .fresh l')
    | none => pure (.bool false, .keep)
  | .dropFirstMut => do
    let (b, l') ← l.dropFirstMut
    pure (.bool b, .update l')
  | .reverse => do
    let l' ← l.reverse
    pure (.unit, .fresh l')
  | .reverseMut => .ok (.unit, .update l.reverseMut)
  | .clone => .ok (.unit, .fresh l.clone)
  | .first => .ok (.opt l.first, .keep)
  | .last => .ok (.opt l.getLast, .keep)
  | .len => .ok (.nat l.len, .keep)
  | .isEmpty => .ok (.bool l.isEmpty, .keep)
  | .iter n => do
    let cs ← fwCalls ListIter.step ListIter.sizeHint n l.iter
    pure (.calls l.iter.sizeHint cs, .keep)

end RList
end Rpds
