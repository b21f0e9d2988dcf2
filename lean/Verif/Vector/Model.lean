import Verif.Iter
/-
Model of `rpds::Vector` (/repo/src/vector/mod.rs).

All `usize` arithmetic goes through `Arch` (word size and build mode).  A `Vec` is a `List`.  `SharedPointer` is the value
pointed to (sharing is in `Verif/Heap`), so `make_mut` is the identity.
-/
set_option autoImplicit false
namespace Rpds

/-- `enum Node` (vector/mod.rs:107-113). -/
inductive VNode (T : Type) where
  | branch (a : List (VNode T))
  | leaf (a : List T)

/-- `vector_utils::degree` (vector/mod.rs:256-258). -/
def vecDegree (A : Arch) (bits : Nat) : Res Nat := A.ushl 1 bits

/-- `vector_utils::mask` (vector/mod.rs:261-263). -/
def vecMask (A : Arch) (bits : Nat) : Res Nat := do
  let d ← vecDegree A bits
  A.usub d 1

/-- `vector_utils::bucket` (vector/mod.rs:266-268). -/
def vecBucket (A : Arch) (bits index height : Nat) : Res Nat := do
  let s ← A.umul height bits
  let i ← A.ushr index s
  let m ← vecMask A bits
  pure (i &&& m)

namespace VNode
variable {T : Type} (A : Arch) (bits : Nat)

mutual
/-- `Node::get` (vector/mod.rs:127-137). -/
def get (index : Nat) : VNode T → (height : Nat) → Res T
  | .branch a, height => do
    let b ← vecBucket A bits index height
    getAt index a b height
  | .leaf a, height => do
    let b ← vecBucket A bits index height
    A.debugAssert (height == 0)
    vecIndex a b
/-- `a[b].get(index, height - 1, bucket)` (vector/mod.rs:131): walks to entry `b` of the `Vec`. -/
def getAt (index : Nat) : List (VNode T) → Nat → (height : Nat) → Res T
  | [], _, _ => .error .indexOutOfBounds
  | c :: _, 0, height => do
    let h ← A.usub height 1
    get index c h
  | _ :: cs, b + 1, height => getAt index cs b height
end

mutual
/-- `Node::get_mut` followed by a write of `f old` through the reference (vector/mod.rs:222-239). -/
def modify (f : T → T) (index : Nat) : VNode T → (height : Nat) → Res (VNode T)
  | .branch a, height => do
    let b ← vecBucket A bits index height
    let a' ← modifyAt f index a b height
    pure (.branch a')
  | .leaf a, height => do
    let b ← vecBucket A bits index height
    A.debugAssert (height == 0)
    let x ← vecIndex a b
    let a' ← vecSet a b (f x)
    pure (.leaf a')
/-- `make_mut(&mut a[b]).get_mut(index, height - 1, bucket)` (vector/mod.rs:232). -/
def modifyAt (f : T → T) (index : Nat) : List (VNode T) → Nat → (height : Nat) → Res (List (VNode T))
  | [], _, _ => .error .indexOutOfBounds
  | c :: cs, 0, height => do
    let h ← A.usub height 1
    let c' ← modify f index c h
    pure (c' :: cs)
  | c :: cs, b + 1, height => do
    let cs' ← modifyAt f index cs b height
    pure (c :: cs')
end

/-- `Node::assoc` on a node just created empty (the recursion of vector/mod.rs:161-167): `isBranch` tells which kind. -/
def assocNew (value : T) (index : Nat) : (isBranch : Bool) → (height : Nat) → Res (VNode T)
  | false, height => do
    let b ← vecBucket A bits index height
    A.debugAssert (height == 0)
    if 0 == b then pure (.leaf [value]) else .error .indexOutOfBounds
  | true, 0 => do
    let _ ← vecBucket A bits index 0
    A.debugAssert false
    .error .diverge
  | true, height + 1 => do
    let _ ← vecBucket A bits index (height + 1)
    let sub ← assocNew value index (decide (height + 1 > 1)) height
    pure (.branch [sub])

mutual
/-- `Node::assoc` (vector/mod.rs:139-173). -/
def assoc (value : T) (index : Nat) : VNode T → (height : Nat) → Res (VNode T)
  | .leaf a, height => do
    let b ← vecBucket A bits index height
    A.debugAssert (height == 0)
    if a.length == b then pure (.leaf (a ++ [value]))
    else do
      let a' ← vecSet a b value
      pure (.leaf a')
  | .branch a, height => do
    let b ← vecBucket A bits index height
    A.debugAssert (decide (height > 0))
    match ← assocAt value index a b height with
    | some a' => pure (.branch a')
    | none => do
      let isBranch := decide (height > 1)
      let h ← A.usub height 1
      let sub ← assocNew A bits value index isBranch h
      pure (.branch (a ++ [sub]))
/-- `match a.get_mut(b) { Some(subtree) => make_mut(subtree).assoc(value, height - 1, bucket), None => … }`
(vector/mod.rs:156-160); `none` when there is no entry `b`. -/
def assocAt (value : T) (index : Nat) : List (VNode T) → Nat → (height : Nat) → Res (Option (List (VNode T)))
  | [], _, _ => .ok none
  | c :: cs, 0, height => do
    let h ← A.usub height 1
    let c' ← assoc value index c h
    pure (some (c' :: cs))
  | c :: cs, b + 1, height => do
    let r ← assocAt value index cs b height
    pure (r.map (c :: ·))
end

/-- `Node::used` (vector/mod.rs:185-190). -/
def used : VNode T → Nat
  | .leaf a => a.length
  | .branch a => a.length

/-- `Node::is_empty` (vector/mod.rs:176-178). -/
def isEmpty (n : VNode T) : Bool := n.used == 0

/-- `Node::is_singleton` (vector/mod.rs:181-183). -/
def isSingleton (n : VNode T) : Bool := n.used == 1

mutual
/-- `Node::drop_last` (vector/mod.rs:197-215): the answer and the node afterwards. -/
def dropLast : VNode T → Res (Bool × VNode T)
  | .leaf a =>
    if (VNode.leaf a).isEmpty then .ok (true, .leaf a)
    else
      let n := VNode.leaf a.dropLast
      .ok (n.isEmpty, n)
  | .branch a =>
    if (VNode.branch a).isEmpty then .ok (true, .branch a)
    else do
      let a' ← dropLastAt a
      let n := VNode.branch a'
      pure (n.isEmpty, n)
/-- `if make_mut(a.last_mut().unwrap()).drop_last() { a.pop(); }` (vector/mod.rs:208-210). -/
def dropLastAt : List (VNode T) → Res (List (VNode T))
  | [] => .error .unwrapNone
  | [c] => do
    let (e, c') ← dropLast c
    if e then pure [] else pure [c']
  | c :: c₁ :: cs => do
    let cs' ← dropLastAt (c₁ :: cs)
    pure (c :: cs')
end

end VNode

/-- `struct Vector` (vector/mod.rs:95-102). -/
structure RVector (T : Type) where
  root : VNode T
  bits : Nat
  length : Nat

namespace RVector
variable {T : Type} (A : Arch)

/-- `DEFAULT_BITS` (vector/mod.rs:14). -/
def defaultBits : Nat := 5

/-- `Vector::new_with_bits` (vector/mod.rs:295-299). -/
def newWithBits (bits : Nat) : Res (RVector T) := do
  assertRt (decide (bits > 0))
  pure { root := .leaf [], bits, length := 0 }

/-- `Vector::new_with_ptr_kind` (vector/mod.rs:290-292), also `new`, `new_sync`, `default`. -/
def new : Res (RVector T) := newWithBits defaultBits

/-- `Vector::height` (vector/mod.rs:316-326). -/
def height (v : RVector T) : Res Nat :=
  if v.length > 1 then do
    let u ← A.usub v.length 1
    let c ← A.usub A.W (A.leadingZeros u)
    let b := v.bits
    let q ← udiv c b
    let r ← urem c b
    let s ← A.uadd q (if r > 0 then 1 else 0)
    A.usub s 1
  else pure 0

/-- `Vector::get` (vector/mod.rs:329-337). -/
def get (v : RVector T) (index : Nat) : Res (Option T) :=
  if index ≥ v.length then pure none
  else do
    let h ← v.height A
    let x ← v.root.get A v.bits index h
    pure (some x)

/-- `Vector::first` (vector/mod.rs:303-305). -/
def first (v : RVector T) : Res (Option T) := v.get A 0

/-- `Vector::last` (vector/mod.rs:308-313). -/
def last (v : RVector T) : Res (Option T) :=
  match v.length with
  | 0 => pure none
  | n => do
    let i ← A.usub n 1
    v.get A i

/-- `Vector::root_max_capacity` (vector/mod.rs:379-388). -/
def rootMaxCapacity (v : RVector T) : Res Nat := do
  let h ← v.height A
  let h1 ← A.uadd h 1
  let s ← A.umul v.bits h1
  A.ushl 1 s

/-- The `debug_assert!` of `Vector::assoc` (vector/mod.rs:361-364), whose condition is evaluated in debug builds only. -/
def assocCheck (v : RVector T) (index : Nat) : Res Unit :=
  match A.mode with
  | .debug => do
    let m ← v.rootMaxCapacity A
    A.debugAssert (decide (index < m))
  | .release => pure ()

/-- `Vector::assoc` (vector/mod.rs:360-376). -/
def assoc (v : RVector T) (index : Nat) (x : T) : Res (RVector T) := do
  v.assocCheck A index
  let height ← v.height A
  let bits := v.bits
  let root ← v.root.assoc A bits x index height
  let v := { v with root }
  let adds_item := decide (index ≥ v.length)
  if adds_item then do
    let length ← A.uadd v.length 1
    pure { v with length }
  else pure v

/-- `Clone for Vector` (vector/mod.rs:589-591). -/
def clone (v : RVector T) : RVector T := { root := v.root, bits := v.bits, length := v.length }

/-- `Vector::set_mut` (vector/mod.rs:347-354). -/
def setMut (v : RVector T) (index : Nat) (x : T) : Res (Bool × RVector T) :=
  if index ≥ v.length then pure (false, v)
  else do
    let v ← v.assoc A index x
    pure (true, v)

/-- `Vector::set` (vector/mod.rs:340-344). -/
def set (v : RVector T) (index : Nat) (x : T) : Res (Option (RVector T)) := do
  let (b, new_vector) ← v.clone.setMut A index x
  pure (if b then some new_vector else none)

/-- `Vector::is_root_full` (vector/mod.rs:391-393). -/
def isRootFull (v : RVector T) : Res Bool := do
  let m ← v.rootMaxCapacity A
  pure (v.length == m)

/-- `Vector::push_back_mut` (vector/mod.rs:404-422). -/
def pushBackMut (v : RVector T) (x : T) : Res (RVector T) := do
  let full ← v.isRootFull A
  if full then do
    let new_root := VNode.branch [v.root]
    let length := v.length
    let v := { v with root := new_root }
    let l ← A.uadd v.length 1
    let v := { v with length := l }
    v.assoc A length x
  else do
    let length := v.length
    v.assoc A length x

/-- `Vector::push_back` (vector/mod.rs:396-402). -/
def pushBack (v : RVector T) (x : T) : Res (RVector T) := v.clone.pushBackMut A x

/-- `Vector::compress_root` (vector/mod.rs:428-436): the new root if any (`a.pop()` of a singleton branch). -/
def compressRoot (root : VNode T) : Option (VNode T) :=
  let singleton := root.isSingleton
  match root with
  | .leaf _ => none
  | .branch a => if singleton then a.getLast? else none

/-- `Vector::drop_last_mut` (vector/mod.rs:445-464). -/
def dropLastMut (v : RVector T) : Res (Bool × RVector T) :=
  if v.length > 0 then do
    let (_, root) ← v.root.dropLast
    let length ← A.usub v.length 1
    let v := { v with root, length }
    match compressRoot root with
    | some new_root => pure (true, { v with root := new_root })
    | none => pure (true, v)
  else pure (false, v)

/-- `Vector::drop_last` (vector/mod.rs:439-443). -/
def dropLast (v : RVector T) : Res (Option (RVector T)) := do
  let (b, new_vector) ← v.clone.dropLastMut A
  pure (if b then some new_vector else none)

/-- `Vector::len` (vector/mod.rs:468-470). -/
def len (v : RVector T) : Nat := v.length

/-- `Vector::is_empty` (vector/mod.rs:474-476). -/
def isEmpty (v : RVector T) : Bool := v.len == 0

/-- `Vector::get_mut` (vector/mod.rs:495-507) followed by a write of `f old` through the reference. -/
def modify (v : RVector T) (index : Nat) (f : T → T) : Res (Option (RVector T)) :=
  if index ≥ v.length then pure none
  else do
    let height ← v.height A
    let root ← v.root.modify A v.bits f index height
    pure (some { v with root })

/-- `Index for Vector` (vector/mod.rs:516-518). -/
def index (v : RVector T) (i : Nat) : Res T := do
  match ← v.get A i with
  | some x => pure x
  | none => .error .assertFailed

/-- `IndexMut for Vector` (vector/mod.rs:525-527) followed by a write of `x` through the reference. -/
def indexMut (v : RVector T) (i : Nat) (x : T) : Res (RVector T) := do
  match ← v.modify A i (fun _ => x) with
  | some v => pure v
  | none => .error .assertFailed

/-- `Extend for Vector` (vector/mod.rs:642-646). -/
def extend (v : RVector T) : List T → Res (RVector T)
  | [] => .ok v
  | x :: xs => do
    let v ← v.pushBackMut A x
    extend v xs

/-- `FromIterator for Vector` (vector/mod.rs:631-635). -/
def fromIter (items : List T) : Res (RVector T) := do
  let vector ← new
  extend A vector items

/-- `vector!`/`vector_sync!` (vector/mod.rs:29-66). -/
def vectorMacro (args : List T) : Res (RVector T) := do
  let v ← new
  args.foldlM (fun v e => v.pushBackMut A e) v

/-- The loop of `visit_seq` (vector/mod.rs:903-905) on the results of `next_element()`. The outer level is a panic, the inner
one the deserialization error. -/
def visitLoop {E : Type} : RVector T → List (Except E T) → Res (Except E (RVector T))
  | v, [] => .ok (.ok v)
  | _, .error e :: _ => .ok (.error e)
  | v, .ok x :: seq => do
    let v ← v.pushBackMut A x
    visitLoop v seq

/-- `Deserialize for Vector` (vector/mod.rs:875-908). -/
def deserialize {E : Type} (seq : List (Except E T)) : Res (Except E (RVector T)) := do
  let vector ← new
  visitLoop A vector seq

end RVector

/-- `struct IterStackElement` (vector/mod.rs:662-668).  The index is an `isize`. -/
structure VElem (T : Type) where
  node : VNode T
  index : Int

namespace VElem
variable {T : Type}

/-- `IterStackElement::new` (vector/mod.rs:674-677). -/
def new (node : VNode T) (backwards : Bool) : VElem T :=
  { node, index := if backwards then (node.used : Int) - 1 else 0 }

/-- `a[index as usize]`: a negative `isize` becomes a huge `usize` and is out of bounds. -/
def idx {α : Type} (a : List α) (i : Int) : Res α :=
  if i < 0 then .error .indexOutOfBounds else vecIndex a i.toNat

/-- `IterStackElement::current_elem` (vector/mod.rs:689-695). -/
def currentElem (e : VElem T) : Res T :=
  match e.node with
  | .leaf a => idx a e.index
  | .branch _ => .error .assertFailed

/-- `IterStackElement::advance` (vector/mod.rs:699-708): `true` if finished, and the element afterwards. -/
def advance (e : VElem T) (backwards : Bool) : Bool × VElem T :=
  if backwards then
    let e := { e with index := e.index - 1 }
    (decide (e.index < 0), e)
  else
    let e := { e with index := e.index + 1 }
    (decide (e.index ≥ e.node.used), e)

end VElem

/-- `struct IterPtr` (vector/mod.rs:649-660).  Stacks are lists with the top first. -/
structure VIter (T : Type) where
  vector : RVector T
  stack_forward : Option (List (VElem T))
  stack_backward : Option (List (VElem T))
  left_index : Nat
  right_index : Nat

namespace VIter
variable {T : Type} (A : Arch)

/-- `IterPtr::new` (vector/mod.rs:715-725). -/
def new (v : RVector T) : VIter T :=
  { vector := v, stack_forward := none, stack_backward := none, left_index := 0, right_index := v.len }

mutual
/-- `IterPtr::dig` (vector/mod.rs:727-741) on the stack `⟨node, index⟩ :: rest`, including `current_node` (680-686). -/
def dig (backwards : Bool) : VNode T → (index : Int) → List (VElem T) → Res (List (VElem T))
  | .leaf a, index, rest => .ok (⟨.leaf a, index⟩ :: rest)
  | .branch a, index, rest =>
    if index < 0 then .error .indexOutOfBounds
    else digAt backwards a index.toNat (⟨.branch a, index⟩ :: rest)
/-- Pushes entry `i` of the branch and digs on. -/
def digAt (backwards : Bool) : List (VNode T) → Nat → List (VElem T) → Res (List (VElem T))
  | [], _, _ => .error .indexOutOfBounds
  | c :: _, 0, rest => dig backwards c (VElem.new c backwards).index rest
  | _ :: cs, i + 1, rest => digAt backwards cs i rest
end

/-- The stack made by `init_if_needed` (vector/mod.rs:743-757); the reserved capacity is computed but unused. -/
def initStack (v : RVector T) (backwards : Bool) : Res (List (VElem T)) := do
  let h ← v.height A
  let _ ← A.uadd h 1
  let e := VElem.new v.root backwards
  dig backwards e.node e.index []

/-- `init_if_needed` (vector/mod.rs:743-757). -/
def initIfNeeded (it : VIter T) (backwards : Bool) : Res (VIter T) :=
  if backwards then
    match it.stack_backward with
    | some _ => pure it
    | none => do
      let s ← initStack A it.vector true
      pure { it with stack_backward := some s }
  else
    match it.stack_forward with
    | some _ => pure it
    | none => do
      let s ← initStack A it.vector false
      pure { it with stack_forward := some s }

/-- `IterPtr::advance` (vector/mod.rs:759-771). -/
def advance (backwards : Bool) : List (VElem T) → Res (List (VElem T))
  | [] => .ok []
  | e :: stack =>
    let (finished, e) := e.advance backwards
    if finished then advance backwards stack
    else dig backwards e.node e.index stack

/-- `IterPtr::current` (vector/mod.rs:774-776). -/
def current (stack : List (VElem T)) : Res (Option T) :=
  match stack with
  | [] => pure none
  | e :: _ => do
    let x ← e.currentElem
    pure (some x)

/-- `IterPtr::non_empty` (vector/mod.rs:779-781). -/
def nonEmpty (it : VIter T) : Bool := decide (it.left_index < it.right_index)

/-- `IterPtr::advance_forward` (vector/mod.rs:783-789). -/
def advanceForward (it : VIter T) : Res (VIter T) :=
  if it.nonEmpty then do
    let s ← unwrap it.stack_forward
    let s ← advance false s
    let left_index ← A.uadd it.left_index 1
    pure { it with stack_forward := some s, left_index }
  else pure it

/-- `IterPtr::current_forward` (vector/mod.rs:791-793). -/
def currentForward (it : VIter T) : Res (Option T) :=
  if it.nonEmpty then do
    let s ← unwrap it.stack_forward
    current s
  else pure none

/-- `IterPtr::advance_backward` (vector/mod.rs:795-801). -/
def advanceBackward (it : VIter T) : Res (VIter T) :=
  if it.nonEmpty then do
    let s ← unwrap it.stack_backward
    let s ← advance true s
    let right_index ← A.usub it.right_index 1
    pure { it with stack_backward := some s, right_index }
  else pure it

/-- `IterPtr::current_backward` (vector/mod.rs:803-809). -/
def currentBackward (it : VIter T) : Res (Option T) :=
  if it.nonEmpty then do
    let s ← unwrap it.stack_backward
    current s
  else pure none

/-- `Iterator::next for IterPtr` (vector/mod.rs:818-826). -/
def next (it : VIter T) : Res (Option T × VIter T) := do
  let it ← it.initIfNeeded A false
  let current ← it.currentForward
  let it ← it.advanceForward A
  pure (current, it)

/-- `DoubleEndedIterator::next_back for IterPtr` (vector/mod.rs:839-847). -/
def nextBack (it : VIter T) : Res (Option T × VIter T) := do
  let it ← it.initIfNeeded A true
  let current ← it.currentBackward
  let it ← it.advanceBackward A
  pure (current, it)

/-- `size_hint` (vector/mod.rs:828-832): lower and upper bound are both this. -/
def sizeHint (it : VIter T) : Res Nat := A.usub it.right_index it.left_index

end VIter

namespace RVector
variable {T U : Type} (A : Arch)

/-- `Vector::iter` (vector/mod.rs:478-485, 622-624). -/
def iter (v : RVector T) : VIter T := VIter.new v

/-- `PartialEq for Vector` (vector/mod.rs:544-546). -/
def eq (eqT : T → U → Bool) (a : RVector T) (b : RVector U) : Res Bool :=
  if a.length == b.length then iterEq (VIter.next A) (VIter.next A) eqT (a.length + 1) a.iter b.iter else pure false

/-- `PartialOrd for Vector` (vector/mod.rs:556-558). -/
def partialCmp (cmp : T → U → Option Ordering) (a : RVector T) (b : RVector U) : Res (Option Ordering) :=
  iterPartialCmp (VIter.next A) (VIter.next A) cmp (a.length + 1) a.iter b.iter

/-- `Ord for Vector` (vector/mod.rs:565-567). -/
def cmp (cmpT : T → T → Ordering) (a b : RVector T) : Res Ordering :=
  iterCmp (VIter.next A) (VIter.next A) cmpT (a.length + 1) a.iter b.iter

/-- `Hash for Vector` (vector/mod.rs:574-582). -/
def hash {S : Type} (hashUsize : S → Nat → S) (hashT : S → T → S) (v : RVector T) (state : S) : Res S :=
  iterHash (VIter.next A) hashT (v.length + 1) v.iter (hashUsize state v.len)

/-- `Display for Vector` (vector/mod.rs:598-612). -/
def display (fmt : T → String) (v : RVector T) : Res String := do
  let out ← iterDisplay (VIter.next A) fmt (v.length + 1) v.iter true "["
  pure (out ++ "]")

/-- `Serialize for Vector` (vector/mod.rs:865-867). -/
def serialize (v : RVector T) : Res (List T) := drain (VIter.next A) (v.length + 1) v.iter

/-- The public operations of `Vector` on one version.  `iter cs` makes the calls `cs` of `next`/`next_back`. -/
inductive Op (T : Type) where
  | pushBack (x : T)
  | pushBackMut (x : T)
  | set (i : Nat) (x : T)
  | setMut (i : Nat) (x : T)
  | dropLast
  | dropLastMut
  | getMut (i : Nat) (f : T → T)
  | indexMut (i : Nat) (x : T)
  | extend (xs : List T)
  | clone
  | get (i : Nat)
  | index (i : Nat)
  | first
  | last
  | len
  | isEmpty
  | iter (cs : List Spec.End)

/-- Answers of operations.  `panicked` is the documented panic of `v[i]` out of bounds. -/
inductive Ret (T : Type) where
  | unit
  | bool (b : Bool)
  | nat (n : Nat)
  | opt (o : Option T)
  | panicked
  | calls (hint : Nat) (cs : List (Option T × Nat))
  deriving DecidableEq, Repr

/-- Runs one operation on one version.  The documented panic of `v[i]` (and only that panic) becomes the answer `panicked`
and leaves the version as it was. -/
def step (v : RVector T) : Op T → Res (Ret T × Effect (RVector T))
  | .pushBack x => do
    let w ← v.pushBack A x
    pure (.unit, .fresh w)
  | .pushBackMut x => do
    let w ← v.pushBackMut A x
    pure (.unit, .update w)
  | .set i x => do
    match ← v.set A i x with
    | some w => pure (.bool true, .fresh w)
    | none => pure (.bool false, .keep)
  | .setMut i x => do
    let (b, w) ← v.setMut A i x
    pure (.bool b, .update w)
  | .dropLast => do
    match ← v.dropLast A with
    | some w => pure (.bool true, .fresh w)
    | none => pure (.bool false, .keep)
  | .dropLastMut => do
    let (b, w) ← v.dropLastMut A
    pure (.bool b, .update w)
  | .getMut i f => do
    match ← v.modify A i f with
    | some w => pure (.bool true, .update w)
    | none => pure (.bool false, .keep)
  | .indexMut i x =>
    match v.indexMut A i x with
    | .ok w => .ok (.unit, .update w)
    | .error .assertFailed => .ok (.panicked, .keep)
    | .error e => .error e
  | .extend xs => do
    let w ← v.extend A xs
    pure (.unit, .update w)
  | .clone => .ok (.unit, .fresh v.clone)
  | .get i => do
    let o ← v.get A i
    pure (.opt o, .keep)
  | .index i =>
    match v.index A i with
    | .ok x => .ok (.opt (some x), .keep)
    | .error .assertFailed => .ok (.panicked, .keep)
    | .error e => .error e
  | .first => do
    let o ← v.first A
    pure (.opt o, .keep)
  | .last => do
    let o ← v.last A
    pure (.opt o, .keep)
  | .len => .ok (.nat v.len, .keep)
  | .isEmpty => .ok (.bool v.isEmpty, .keep)
  | .iter cs => do
    let n ← v.iter.sizeHint A
    let rs ← deCalls (VIter.next A) (VIter.nextBack A) (VIter.sizeHint A) cs v.iter
    pure (.calls n rs, .keep)

end RVector
end Rpds
