import Verif.Spec.Map
import Verif.Iter
/-
Model of `RedBlackTreeMap` (/repo/src/map/red_black_tree_map/mod.rs; line numbers below are of that file).

`Option<SharedPointer<Node>>` is `RBTree`; a `Node` held by value or through `&mut` is `RBNode`.  `SharedPointer::make_mut` gives
write access to a node nobody else sees, so functions with `&mut` parameters become functions returning the new value (sharing is
the subject of the heap model).  The bodies of `balance`, `remove_fuse` and the others are transcribed statement by statement:
`take()` reads a field and leaves `none`, `swap` exchanges two fields.  `unwrap()`, `unreachable!()` and `debug_assert!` are explicit
errors.
-/
set_option autoImplicit false
namespace Rpds

/-- What the map needs to know of keys: `Ord` of the key type `K`, `Ord`/`PartialEq` of the borrowed type `Q`, and `Borrow<Q>`.
The operators `<`, `<=`, `>`, `>=` are those of `PartialOrd`, which `Ord` requires to agree with `cmp`; they are expressed through
`cmp`. -/
structure OrdKeys (K Q : Type) where
  cmpK : K → K → Ordering
  cmpQ : Q → Q → Ordering
  eqQ : Q → Q → Bool
  borrow : K → Q

namespace OrdKeys
variable {K Q : Type}

/-- `K` as its own borrowed form (`impl Borrow<T> for T`). -/
def self (o : OrdKeys K Q) : OrdKeys K K := ⟨o.cmpK, o.cmpK, fun a b => o.cmpK a b == .eq, id⟩

/-- Two keys are the same for the map. -/
def same (o : OrdKeys K Q) (a b : K) : Bool := o.cmpK a b == .eq

/-- The borrowed key `q` finds the key `k`. -/
def hits (o : OrdKeys K Q) (k : K) (q : Q) : Bool := o.cmpQ q (o.borrow k) == .eq

/-- The contracts of `Ord` and `Borrow`: total orders, preserved by `borrow`. -/
structure Lawful (o : OrdKeys K Q) : Prop where
  ordK : Spec.LawfulOrd o.cmpK o.same
  ordQ : Spec.LawfulOrd o.cmpQ o.eqQ
  borrow : ∀ a b, o.cmpQ (o.borrow a) (o.borrow b) = o.cmpK a b

end OrdKeys

/-- `enum Color` (114-117). -/
inductive Color where
  | red
  | black
  deriving DecidableEq, Repr

/-- `Option<SharedPointer<Node<K, V, P>, P>>` with `struct Node` (120-128).  The entry is `SharedPointer<Entry<K, V>, P>`, a pair here. -/
inductive RBTree (K V : Type) where
  | none
  | some (entry : K × V) (color : Color) (left right : RBTree K V)
  deriving DecidableEq, Repr

/-- A `Node` held by value (120-128). -/
structure RBNode (K V : Type) where
  entry : K × V
  color : Color
  left : RBTree K V
  right : RBTree K V
  deriving DecidableEq, Repr

namespace RBTree
variable {K V : Type}

/-- The node pointed to. -/
def node? : RBTree K V → Option (RBNode K V)
  | .none => Option.none
  | .some e c l r => Option.some ⟨e, c, l, r⟩

/-- `map(|l| l.color)`. -/
def color : RBTree K V → Option Color
  | .none => Option.none
  | .some _ c _ _ => Option.some c

/-- `self.left.as_ref().and_then(|l| l.left_color())` for `t = self.left`. -/
def leftColor : RBTree K V → Option Color
  | .none => Option.none
  | .some _ _ l _ => l.color

/-- `self.left.as_ref().and_then(|l| l.right_color())` for `t = self.left`. -/
def rightColor : RBTree K V → Option Color
  | .none => Option.none
  | .some _ _ _ r => r.color

/-- Number of nodes; bounds the recursion of `remove_fuse`. -/
def count : RBTree K V → Nat
  | .none => 0
  | .some _ _ l r => l.count + r.count + 1

end RBTree

namespace RBNode
variable {K V Q : Type}

/-- `Some(SharedPointer::new(node))`. -/
def ptr (n : RBNode K V) : RBTree K V := .some n.entry n.color n.left n.right

/-- `Node::new_red` (149-151). -/
def newRed (entry : K × V) : RBNode K V := ⟨entry, .red, .none, .none⟩

/-- `Node::new_black` (153-155). -/
def newBlack (entry : K × V) : RBNode K V := ⟨entry, .black, .none, .none⟩

/-- `Node::left_color` (161-163). -/
def leftColor (n : RBNode K V) : Option Color := n.left.color

/-- `Node::right_color` (165-167). -/
def rightColor (n : RBNode K V) : Option Color := n.right.color

/-- Case 1 of `Node::balance` (283-300). -/
def balance1 (self : RBNode K V) : Res (RBNode K V) := do
  let node_l ← unwrap self.left.node?
  let self := { self with left := .none }
  let node_l_l ← unwrap node_l.left.node?
  let node_l := { node_l with left := .none }
  let self := { self with color := .red }
  let node_l := { node_l with color := .black }
  let node_l_l := { node_l_l with color := .black }
  let (self, node_l) := ({ self with entry := node_l.entry }, { node_l with entry := self.entry })
  let node_l := { node_l with left := node_l.right, right := node_l.left }
  let (self, node_l) := ({ self with right := node_l.right }, { node_l with right := self.right })
  let self := { self with left := node_l_l.ptr }
  let self := { self with right := node_l.ptr }
  pure self

/-- Case 2 of `Node::balance` (303-321). -/
def balance2 (self : RBNode K V) : Res (RBNode K V) := do
  let node_l ← unwrap self.left.node?
  let self := { self with left := .none }
  let node_l_r ← unwrap node_l.right.node?
  let node_l := { node_l with right := .none }
  let self := { self with color := .red }
  let node_l := { node_l with color := .black }
  let node_l_r := { node_l_r with color := .black }
  let (self, node_l_r) := ({ self with entry := node_l_r.entry }, { node_l_r with entry := self.entry })
  let node_l_r := { node_l_r with left := node_l_r.right, right := node_l_r.left }
  let (node_l, node_l_r) := ({ node_l with right := node_l_r.right }, { node_l_r with right := node_l.right })
  let (self, node_l_r) := ({ self with right := node_l_r.right }, { node_l_r with right := self.right })
  let self := { self with right := node_l_r.ptr }
  let self := { self with left := node_l.ptr }
  pure self

/-- Case 3 of `Node::balance` (324-342). -/
def balance3 (self : RBNode K V) : Res (RBNode K V) := do
  let node_r ← unwrap self.right.node?
  let self := { self with right := .none }
  let node_r_l ← unwrap node_r.left.node?
  let node_r := { node_r with left := .none }
  let self := { self with color := .red }
  let node_r := { node_r with color := .black }
  let node_r_l := { node_r_l with color := .black }
  let (self, node_r_l) := ({ self with entry := node_r_l.entry }, { node_r_l with entry := self.entry })
  let (node_r, node_r_l) := ({ node_r with left := node_r_l.right }, { node_r_l with right := node_r.left })
  let node_r_l := { node_r_l with left := node_r_l.right, right := node_r_l.left }
  let (self, node_r_l) := ({ self with left := node_r_l.left }, { node_r_l with left := self.left })
  let self := { self with left := node_r_l.ptr }
  let self := { self with right := node_r.ptr }
  pure self

/-- Case 4 of `Node::balance` (345-362). -/
def balance4 (self : RBNode K V) : Res (RBNode K V) := do
  let node_r ← unwrap self.right.node?
  let self := { self with right := .none }
  let node_r_r ← unwrap node_r.right.node?
  let node_r := { node_r with right := .none }
  let self := { self with color := .red }
  let node_r := { node_r with color := .black }
  let node_r_r := { node_r_r with color := .black }
  let (self, node_r) := ({ self with entry := node_r.entry }, { node_r with entry := self.entry })
  let node_r := { node_r with left := node_r.right, right := node_r.left }
  let (self, node_r) := ({ self with left := node_r.left }, { node_r with left := self.left })
  let self := { self with right := node_r_r.ptr }
  let self := { self with left := node_r.ptr }
  pure self

/-- `Node::balance` (267-369). -/
def balance (self : RBNode K V) : Res (RBNode K V) :=
  match self.color with
  | .black =>
    match self.leftColor, self.left.leftColor, self.left.rightColor, self.rightColor, self.right.leftColor,
      self.right.rightColor with
    | some .red, some .red, _, _, _, _ => self.balance1
    | some .red, _, some .red, _, _, _ => self.balance2
    | _, _, _, some .red, some .red, _ => self.balance3
    | _, _, _, some .red, _, some .red => self.balance4
    | _, _, _, _, _, _ => pure self
  | .red => pure self

end RBNode

namespace RBTree
variable {K V Q : Type}

/-- `Node::get` (169-179), on `Option<&Node>`. -/
def get (o : OrdKeys K Q) (key : Q) : RBTree K V → Option (K × V)
  | .none => Option.none
  | .some e _ l r =>
    match o.cmpQ key (o.borrow e.1) with
    | .lt => l.get o key
    | .eq => Option.some e
    | .gt => r.get o key

/-- `Node::first` (181-186), on `Option<&Node>`. -/
def first : RBTree K V → Option (K × V)
  | .none => Option.none
  | .some e _ .none _ => Option.some e
  | .some _ _ l _ => l.first

/-- `Node::last` (188-193), on `Option<&Node>`. -/
def last : RBTree K V → Option (K × V)
  | .none => Option.none
  | .some e _ _ .none => Option.some e
  | .some _ _ _ r => r.last

/-- The end of the two recursive arms of `ins` (384-393, 399-408): `if is_new_key { node.balance(); }`, then
`if is_root { node.color = Black }` (411-413). -/
def insDone (is_root : Bool) (is_new_key : Bool) (node : RBNode K V) : Res (Bool × RBTree K V) := do
  let node ← if is_new_key then node.balance else pure node
  let node := if is_root then { node with color := .black } else node
  pure (is_new_key, node.ptr)

/-- `ins` inside `Node::insert` (373-427). -/
def ins (o : OrdKeys K Q) (k : K) (v : V) : RBTree K V → (is_root : Bool) → Res (Bool × RBTree K V)
  | .none, is_root => pure (true, (if is_root then RBNode.newBlack (k, v) else RBNode.newRed (k, v)).ptr)
  | .some e c l r, is_root =>
    match o.cmpK k e.1 with
    | .lt => do
      let (is_new_key, l) ← ins o k v l false
      insDone is_root is_new_key ⟨e, c, l, r⟩
    | .eq => insDone is_root false ⟨(k, v), c, l, r⟩
    | .gt => do
      let (is_new_key, r) ← ins o k v r false
      insDone is_root is_new_key ⟨e, c, l, r⟩

/-- `Node::insert` (372-430): whether the key is new, and the tree. -/
def insert (o : OrdKeys K Q) (root : RBTree K V) (k : K) (v : V) : Res (Bool × RBTree K V) := ins o k v root true

/-- Writes the color of the node pointed to (`SharedPointer::make_mut(t.as_mut().unwrap()).color = c`). -/
def setColor (c : Color) : RBTree K V → Res (RBTree K V)
  | .none => .error .unwrapNone
  | .some e _ l r => .ok (.some e c l r)

end RBTree

namespace RBNode
variable {K V Q : Type} (A : Arch)

/-- `Node::remove_balance` (547-562). -/
def removeBalance (self : RBNode K V) : Res (RBNode K V) :=
  match self.leftColor, self.rightColor with
  | some .red, some .red => do
    let left ← self.left.setColor .black
    let right ← self.right.setColor .black
    pure { self with left, right, color := .red }
  | _, _ => do
    A.debugAssert (self.color == .black)
    self.balance

/-- The third arm of `Node::remove_balance_left` (589-610). -/
def removeBalanceLeft3 (self : RBNode K V) : Res (RBNode K V) := do
  let self_r ← unwrap self.right.node?
  let self_r_l ← unwrap self_r.left.node?
  let self_r := { self_r with left := .none }
  let new_r_l := self_r_l.right
  let self_r_l := { self_r_l with right := .none }
  let self_r := { self_r with color := .black }
  let self_r := { self_r with left := new_r_l }
  let right ← self_r.right.setColor .red
  let self_r := { self_r with right }
  let self_r ← self_r.removeBalance A
  let self := { self with color := .red }
  let self_r_l := { self_r_l with right := self_r_l.left, left := .none }
  let self_r_l := { self_r_l with left := self.left }
  let self := { self with left := .none }
  let (self, self_r_l) := ({ self with entry := self_r_l.entry }, { self_r_l with entry := self.entry })
  let self := { self with left := self_r_l.ptr }
  pure { self with right := self_r.ptr }

/-- `Node::remove_balance_left` (564-613). -/
def removeBalanceLeft (self : RBNode K V) : Res (RBNode K V) :=
  match self.leftColor, self.rightColor, self.right.leftColor with
  | some .red, _, _ => do
    let self_l ← self.left.setColor .black
    pure { self with color := .red, left := self_l }
  | _, some .black, _ => do
    let self_r ← self.right.setColor .red
    RBNode.removeBalance A { self with color := .black, right := self_r }
  | _, some .red, some .black => self.removeBalanceLeft3 A
  | _, _, _ => .error .unreachable

/-- The third arm of `Node::remove_balance_right` (640-661). -/
def removeBalanceRight3 (self : RBNode K V) : Res (RBNode K V) := do
  let self_l ← unwrap self.left.node?
  let self_l_r ← unwrap self_l.right.node?
  let self_l := { self_l with right := .none }
  let new_l_r := self_l_r.left
  let self_l_r := { self_l_r with left := .none }
  let self_l := { self_l with color := .black }
  let self_l := { self_l with right := new_l_r }
  let left ← self_l.left.setColor .red
  let self_l := { self_l with left }
  let self_l ← self_l.removeBalance A
  let self := { self with color := .red }
  let self_l_r := { self_l_r with left := self_l_r.right, right := .none }
  let self_l_r := { self_l_r with right := self.right }
  let self := { self with right := .none }
  let (self, self_l_r) := ({ self with entry := self_l_r.entry }, { self_l_r with entry := self.entry })
  let self := { self with right := self_l_r.ptr }
  pure { self with left := self_l.ptr }

/-- `Node::remove_balance_right` (615-664). -/
def removeBalanceRight (self : RBNode K V) : Res (RBNode K V) :=
  match self.leftColor, self.left.rightColor, self.rightColor with
  | _, _, some .red => do
    let self_r ← self.right.setColor .black
    pure { self with color := .red, right := self_r }
  | some .black, _, _ => do
    let self_l ← self.left.setColor .red
    RBNode.removeBalance A { self with color := .black, left := self_l }
  | some .red, some .black, _ => self.removeBalanceRight3 A
  | _, _, _ => .error .unreachable

/-- The arms `R if fused` of `remove_fuse` (486-495, 516-525). -/
def fuseRed (node l r : RBNode K V) : RBNode K V :=
  let fl := node.left
  let fr := node.right
  let l := { l with right := fl }
  let r := { r with left := fr }
  { node with left := l.ptr, right := r.ptr }

/-- The arms `_` of `remove_fuse` up to `node.right = Some(r_ptr)` (496-504, 526-534): `swap(l, node)`, hang what is now `l` below `r`
if it holds something. -/
def fuseSwap (fused : Bool) (node l r : RBNode K V) : RBNode K V :=
  let (l, node) := (node, l)
  let r := if fused then { r with left := l.ptr } else r
  { node with right := r.ptr }

/-- `Node::remove_fuse` (433-545): whether there was something to fuse, and the node written. -/
def removeFuse (node : RBNode K V) (left right : RBTree K V) : Res (Bool × RBNode K V) :=
  match left, right with
  | .none, .none => pure (false, node)
  | .none, .some re rc rl rr => pure (true, ⟨re, rc, rl, rr⟩)
  | .some le lc ll lr, .none => pure (true, ⟨le, lc, ll, lr⟩)
  | .some le lc ll lr, .some re rc rl rr =>
    match lc, rc with
    | .black, .red => do
      let r : RBNode K V := ⟨re, rc, .none, rr⟩
      let (_, node) ← removeFuse node (.some le lc ll lr) rl
      let (node, r) := (r, node)
      pure (true, { node with left := r.ptr })
    | .red, .black => do
      let l : RBNode K V := ⟨le, lc, ll, .none⟩
      let (_, node) ← removeFuse node lr (.some re rc rl rr)
      let (node, l) := (l, node)
      pure (true, { node with right := l.ptr })
    | .red, .red => do
      let r : RBNode K V := ⟨re, rc, .none, rr⟩
      let l : RBNode K V := ⟨le, lc, ll, .none⟩
      let (fused, node) ← removeFuse node lr rl
      if node.color == .red && fused then pure (true, fuseRed node l r)
      else pure (true, fuseSwap fused node l r)
    | .black, .black => do
      let r : RBNode K V := ⟨re, rc, .none, rr⟩
      let l : RBNode K V := ⟨le, lc, ll, .none⟩
      let (fused, node) ← removeFuse node lr rl
      if node.color == .red && fused then pure (true, fuseRed node l r)
      else do
        let node := { fuseSwap fused node l r with color := .red }
        let node ← node.removeBalanceLeft A
        pure (true, node)
termination_by left.count + right.count
decreasing_by all_goals simp only [RBTree.count]; omega

end RBNode

namespace RBTree
variable {K V Q : Type} (A : Arch) (o : OrdKeys K Q)

/-- `del_left` (674-690) after the recursive call: `left` is the subtree afterwards. -/
def delLeft (original_left_color : Option Color) (e : K × V) (c : Color) (left right : RBTree K V) : Res (RBNode K V) :=
  let node : RBNode K V := ⟨e, c, left, right⟩
  let node := { node with color := .red }
  if original_left_color = Option.some .black then node.removeBalanceLeft A else pure node

/-- `del_right` (692-709) after the recursive call. -/
def delRight (original_right_color : Option Color) (e : K × V) (c : Color) (left right : RBTree K V) : Res (RBNode K V) :=
  let node : RBNode K V := ⟨e, c, left, right⟩
  let node := { node with color := .red }
  if original_right_color = Option.some .black then node.removeBalanceRight A else pure node

/-- The end of `del` (738-751): blacken the root, drop the node if nothing is left. -/
def delDone (is_root make_node_none : Bool) (node : RBNode K V) : RBTree K V :=
  let node := if is_root then { node with color := .black } else node
  if make_node_none then .none else node.ptr

/-- `del` inside `Node::remove` (711-752): whether the key was present, and the tree. -/
def del (key : Q) : RBTree K V → (is_root : Bool) → Res (Bool × RBTree K V)
  | .none, _ => pure (false, .none)
  | .some e c l r, is_root =>
    match o.cmpQ key (o.borrow e.1) with
    | .lt => do
      let (removed, l') ← del key l false
      let node ← delLeft A l.color e c l' r
      pure (removed, delDone is_root false node)
    | .eq => do
      let (fused, node) ← RBNode.removeFuse A ⟨e, c, .none, .none⟩ l r
      pure (true, delDone is_root (!fused) node)
    | .gt => do
      let (removed, r') ← del key r false
      let node ← delRight A r.color e c l r'
      pure (removed, delDone is_root false node)

/-- `Node::remove` (669-755). -/
def remove (root : RBTree K V) (key : Q) : Res (Bool × RBTree K V) := del A o key root true

/-- `Node::get_mut` (764-778), on `Option<&mut Node>`, followed by writing `f` of the value through the reference: the value found,
and the tree afterwards. -/
def getMut (key : Q) (f : V → V) : RBTree K V → Option V × RBTree K V
  | .none => (Option.none, .none)
  | .some e c l r =>
    match o.cmpQ key (o.borrow e.1) with
    | .lt => let (x, l) := l.getMut key f; (x, .some e c l r)
    | .eq => (Option.some e.2, .some (e.1, f e.2) c l r)
    | .gt => let (x, r) := r.getMut key f; (x, .some e c l r)

end RBTree

/-- `struct RedBlackTreeMap` (103-109). -/
structure RBMap (K V : Type) where
  root : RBTree K V
  size : Nat
  deriving DecidableEq, Repr

/-! ### Iterators -/

/-- `core::ops::Bound`. -/
inductive Bound (Q : Type) where
  | included (q : Q)
  | excluded (q : Q)
  | unbounded
  deriving DecidableEq, Repr

/-- `iter_utils::lg_floor` (1294-1300). -/
def lgFloor (A : Arch) (size : Nat) : Res Nat := do
  A.debugAssert (decide (size > 0))
  let c ← A.usub A.W (A.leadingZeros size)
  A.usub c 1

/-- `iter_utils::conservative_height` (1302-1304). -/
def conservativeHeight (A : Arch) (size : Nat) : Res Nat :=
  if size > 0 then do
    let s ← A.uadd size 1
    let l ← lgFloor A s
    A.umul 2 l
  else pure 0

/-- `iter_utils::IterStack` (1145-1156).  The top of the stack is the head of the list.  `cap` is the capacity reserved for the
`Vec`, kept to state that it suffices. -/
structure IterStack (K V : Type) where
  stack : List (RBNode K V)
  backwards : Bool
  cap : Nat
  deriving DecidableEq, Repr

namespace IterStack
variable {K V Q : Type} (A : Arch) (o : OrdKeys K Q)

/-- `IterStack::current` (1215-1217). -/
def current (s : IterStack K V) : Option (K × V) := s.stack.head?.map fun n => n.entry

/-- `key >= v`, `key > v` or nothing, as tested for a start bound (1195-1199, 1253-1257). -/
def afterStart (start : Bound Q) (key : K) : Bool :=
  match start with
  | .included v => o.cmpQ (o.borrow key) v != .lt
  | .excluded v => o.cmpQ (o.borrow key) v == .gt
  | .unbounded => true

/-- `key <= v`, `key < v` or nothing, as tested for an end bound (1201-1205, 1247-1251). -/
def beforeEnd (end_ : Bound Q) (key : K) : Bool :=
  match end_ with
  | .included v => o.cmpQ (o.borrow key) v != .gt
  | .excluded v => o.cmpQ (o.borrow key) v == .lt
  | .unbounded => true

/-- `IterStack::clear_if_finished` (1186-1212). -/
def clearIfFinished (s : IterStack K V) (start end_ : Bound Q) : IterStack K V :=
  match s.current with
  | none => s
  | some entry =>
    let in_range := if s.backwards then afterStart o start entry.1 else beforeEnd o end_ entry.1
    if !in_range then { s with stack := [] } else s

/-- The recursion of `IterStack::dig` (1219-1233): `child` is the child of the top of the stack in the direction of digging. -/
def digChild (s : IterStack K V) : RBTree K V → IterStack K V
  | .none => s
  | .some e c l r =>
    if s.backwards then digChild { s with stack := ⟨e, c, l, r⟩ :: s.stack } r
    else digChild { s with stack := ⟨e, c, l, r⟩ :: s.stack } l

/-- `IterStack::dig` (1219-1233). -/
def dig (s : IterStack K V) : IterStack K V :=
  match s.stack with
  | [] => s
  | n :: _ => s.digChild (if s.backwards then n.right else n.left)

/-- `IterStack::dig_towards` (1235-1274), on `Option<&Node>`. -/
def digTowards (start end_ : Bound Q) (s : IterStack K V) : RBTree K V → IterStack K V
  | .none => s
  | .some e c l r =>
    let in_range := if s.backwards then beforeEnd o end_ e.1 else afterStart o start e.1
    let s := if in_range then { s with stack := ⟨e, c, l, r⟩ :: s.stack } else s
    match s.backwards, in_range with
    | false, true => digTowards start end_ s l
    | false, false => digTowards start end_ s r
    | true, true => digTowards start end_ s r
    | true, false => digTowards start end_ s l

/-- `IterStack::new` (1163-1184). -/
def new (map : RBMap K V) (start end_ : Bound Q) (backwards : Bool) : Res (IterStack K V) := do
  let h ← conservativeHeight A map.size
  let size ← A.uadd h 1
  let stack : IterStack K V := ⟨[], backwards, size⟩
  let stack := stack.digTowards o start end_ map.root
  pure (stack.clearIfFinished o start end_)

/-- `IterStack::advance` (1276-1291). -/
def advance (s : IterStack K V) (start end_ : Bound Q) : IterStack K V :=
  match s.stack with
  | [] => s
  | node :: rest =>
    let s := { s with stack := rest }
    let child := if s.backwards then node.left else node.right
    let s := match child with
      | .none => s
      | .some e c l r => dig { s with stack := ⟨e, c, l, r⟩ :: s.stack }
    s.clearIfFinished o start end_

end IterStack

/-- `RangeIterPtr` (1367-1378). -/
structure RBRangeIter (K V Q : Type) where
  map : RBMap K V
  stackForward : Option (IterStack K V)
  stackBackward : Option (IterStack K V)
  start : Bound Q
  end_ : Bound Q
  deriving DecidableEq, Repr

namespace RBRangeIter
variable {K V Q : Type} (A : Arch) (o : OrdKeys K Q)

/-- `RangeIterPtr::new` (1387-1389). -/
def new (map : RBMap K V) (start end_ : Bound Q) : RBRangeIter K V Q := ⟨map, none, none, start, end_⟩

/-- `RangeIterPtr::init_if_needed` (1391-1405). -/
def initIfNeeded (it : RBRangeIter K V Q) (backwards : Bool) : Res (RBRangeIter K V Q) :=
  let stack_field := if backwards then it.stackBackward else it.stackForward
  if stack_field.isNone then do
    let s ← IterStack.new A o it.map it.start it.end_ backwards
    pure (if backwards then { it with stackBackward := some s } else { it with stackForward := some s })
  else pure it

/-- `RangeIterPtr::is_remaining_range_empty` (1407-1417). -/
def isRemainingRangeEmpty (it : RBRangeIter K V Q) : Bool :=
  match it.stackForward, it.stackBackward with
  | some stack_forward, some stack_backward =>
    match stack_forward.current, stack_backward.current with
    | some left, some right => o.cmpK left.1 right.1 == .gt
    | _, _ => true
  | _, _ => false

/-- `RangeIterPtr::current_forward` (1419-1424). -/
def currentForward (it : RBRangeIter K V Q) : Res (Option (K × V)) :=
  match it.isRemainingRangeEmpty o with
  | true => pure none
  | false => do
    let s ← unwrap it.stackForward
    pure s.current

/-- `RangeIterPtr::advance_forward` (1426-1431). -/
def advanceForward (it : RBRangeIter K V Q) : Res (RBRangeIter K V Q) := do
  let s ← unwrap it.stackForward
  pure { it with stackForward := some (s.advance o it.start it.end_) }

/-- `RangeIterPtr::current_backward` (1433-1438). -/
def currentBackward (it : RBRangeIter K V Q) : Res (Option (K × V)) :=
  match it.isRemainingRangeEmpty o with
  | true => pure none
  | false => do
    let s ← unwrap it.stackBackward
    pure s.current

/-- `RangeIterPtr::advance_backward` (1440-1445). -/
def advanceBackward (it : RBRangeIter K V Q) : Res (RBRangeIter K V Q) := do
  let s ← unwrap it.stackBackward
  pure { it with stackBackward := some (s.advance o it.start it.end_) }

/-- `Iterator::next for RangeIterPtr` (1457-1465). -/
def next (it : RBRangeIter K V Q) : Res (Option (K × V) × RBRangeIter K V Q) := do
  let it ← it.initIfNeeded A o false
  let current ← it.currentForward o
  let it ← it.advanceForward o
  pure (current, it)

/-- `DoubleEndedIterator::next_back for RangeIterPtr` (1475-1483). -/
def nextBack (it : RBRangeIter K V Q) : Res (Option (K × V) × RBRangeIter K V Q) := do
  let it ← it.initIfNeeded A o true
  let current ← it.currentBackward o
  let it ← it.advanceBackward o
  pure (current, it)

end RBRangeIter

/-- `IterPtr` (1308-1316). -/
structure RBIter (K V : Type) where
  rangeIter : RBRangeIter K V K
  size : Nat
  deriving DecidableEq, Repr

namespace RBIter
variable {K V Q : Type} (A : Arch) (o : OrdKeys K Q)

/-- `IterPtr::new` (1323-1325). -/
def new (map : RBMap K V) : RBIter K V := ⟨RBRangeIter.new map .unbounded .unbounded, map.size⟩

/-- `Iterator::next for IterPtr` (1335-1342). -/
def next (it : RBIter K V) : Res (Option (K × V) × RBIter K V) :=
  if it.size > 0 then do
    let size ← csub it.size 1
    let (x, rangeIter) ← it.rangeIter.next A o.self
    pure (x, { rangeIter, size })
  else pure (none, it)

/-- `size_hint` (1344-1346). -/
def sizeHint (it : RBIter K V) : Nat := it.size

/-- `DoubleEndedIterator::next_back for IterPtr` (1354-1361). -/
def nextBack (it : RBIter K V) : Res (Option (K × V) × RBIter K V) :=
  if it.size > 0 then do
    let size ← csub it.size 1
    let (x, rangeIter) ← it.rangeIter.nextBack A o.self
    pure (x, { rangeIter, size })
  else pure (none, it)

/-- `next` of `core::iter::Map` over this iterator (`Iter`, `IterKeys`, `IterValues`: 12-15, 927-942). -/
def mapNext {β : Type} (f : K × V → β) (it : RBIter K V) : Res (Option β × RBIter K V) := do
  let (x, it) ← it.next A o
  pure (x.map f, it)

/-- `next_back` of `core::iter::Map` over this iterator. -/
def mapNextBack {β : Type} (f : K × V → β) (it : RBIter K V) : Res (Option β × RBIter K V) := do
  let (x, it) ← it.nextBack A o
  pure (x.map f, it)

end RBIter

namespace RBMap
variable {K V Q : Type} (A : Arch) (o : OrdKeys K Q)

/-- `new_with_ptr_kind` (807-809), `new`, `new_sync`, `default` (786-788, 796-798, 1016-1018). -/
def new : RBMap K V := ⟨.none, 0⟩

/-- `Clone for RedBlackTreeMap` (1006-1008). -/
def clone (m : RBMap K V) : RBMap K V := ⟨m.root, m.size⟩

/-- `RedBlackTreeMap::get` (812-818). -/
def get (m : RBMap K V) (key : Q) : Option V := (m.root.get o key).map fun e => e.2

/-- `RedBlackTreeMap::get_key_value` (821-827). -/
def getKeyValue (m : RBMap K V) (key : Q) : Option (K × V) := (m.root.get o key).map fun e => (e.1, e.2)

/-- `RedBlackTreeMap::first` (830-832). -/
def first (m : RBMap K V) : Option (K × V) := m.root.first.map fun e => (e.1, e.2)

/-- `RedBlackTreeMap::last` (835-837). -/
def last (m : RBMap K V) : Option (K × V) := m.root.last.map fun e => (e.1, e.2)

/-- `RedBlackTreeMap::insert_mut` (848-854). -/
def insertMut (m : RBMap K V) (key : K) (value : V) : Res (RBMap K V) := do
  let (is_new_key, root) ← m.root.insert o key value
  pure { root, size := if is_new_key then m.size + 1 else m.size }

/-- `RedBlackTreeMap::insert` (840-846). -/
def insert (m : RBMap K V) (key : K) (value : V) : Res (RBMap K V) := m.clone.insertMut o key value

/-- `RedBlackTreeMap::remove_mut` (872-887). -/
def removeMut (m : RBMap K V) (key : Q) : Res (Bool × RBMap K V) := do
  let (removed, root) ← m.root.remove A o key
  if removed then do
    let size ← csub m.size 1
    pure (removed, { root, size })
  else pure (removed, { m with root })

/-- `RedBlackTreeMap::remove` (857-870). -/
def remove (m : RBMap K V) (key : Q) : Res (RBMap K V) := do
  let (removed, new_map) ← m.clone.removeMut A o key
  pure (if removed then new_map else m.clone)

/-- `RedBlackTreeMap::contains_key` (890-896). -/
def containsKey (m : RBMap K V) (key : Q) : Bool := (m.get o key).isSome

/-- `RedBlackTreeMap::size` (917-919). -/
def getSize (m : RBMap K V) : Nat := m.size

/-- `RedBlackTreeMap::is_empty` (923-925). -/
def isEmpty (m : RBMap K V) : Bool := m.getSize == 0

/-- `RedBlackTreeMap::iter_ptr` (932-934). -/
def iter (m : RBMap K V) : RBIter K V := RBIter.new m

/-- `next` of `RedBlackTreeMap::iter` (927-929). -/
def iterNext : RBIter K V → Res (Option (K × V) × RBIter K V) := RBIter.mapNext A o fun e => (e.1, e.2)

/-- `next_back` of `RedBlackTreeMap::iter` (927-929). -/
def iterNextBack : RBIter K V → Res (Option (K × V) × RBIter K V) := RBIter.mapNextBack A o fun e => (e.1, e.2)

/-- `next` of `RedBlackTreeMap::keys` (936-938). -/
def keysNext : RBIter K V → Res (Option K × RBIter K V) := RBIter.mapNext A o fun e => e.1

/-- `next` of `RedBlackTreeMap::values` (940-942). -/
def valuesNext : RBIter K V → Res (Option V × RBIter K V) := RBIter.mapNext A o fun e => e.2

/-- The alternative `(Included(s), Included(e)) | ... | (Excluded(s), Excluded(e))` of the second match arm of `range`, with its
guard `s > e` (956-963). -/
def startAfterEnd (start end_ : Bound Q) : Bool :=
  match start, end_ with
  | .included s, .included e => o.cmpQ s e == .gt
  | .included s, .excluded e => o.cmpQ s e == .gt
  | .excluded s, .included e => o.cmpQ s e == .gt
  | .excluded s, .excluded e => o.cmpQ s e == .gt
  | _, _ => false

/-- The first match arm of `range` (953-955). -/
def bothExcludedEqual (start end_ : Bound Q) : Bool :=
  match start, end_ with
  | .excluded s, .excluded e => o.eqQ s e
  | _, _ => false

/-- `RedBlackTreeMap::range` (944-966). -/
def range (m : RBMap K V) (start end_ : Bound Q) : Res (RBRangeIter K V Q) :=
  if bothExcludedEqual o start end_ then .error .assertFailed
  else if startAfterEnd o start end_ then .error .assertFailed
  else pure (RBRangeIter.new m start end_)

/-- `RedBlackTreeMap::get_mut` (975-985) followed by writing `f` of the value through the reference. -/
def getMut (m : RBMap K V) (key : Q) (f : V → V) : Option V × RBMap K V :=
  let (x, root) := m.root.getMut o key f
  (x, { m with root })

/-- `Index for RedBlackTreeMap` (996-998). -/
def index (m : RBMap K V) (key : Q) : Res V := unwrap (m.get o key)

/-- `PartialEq for RedBlackTreeMap` (1027-1033).  `samePtr` is the answer of `ptr_eq`. -/
def eq (eqV : V → V → Bool) (samePtr : Bool) (a b : RBMap K V) : Res Bool :=
  if samePtr then pure true
  else if a.getSize == b.getSize then
    iterAll (iterNext A o) (fun kv => pure (match b.get o.self kv.1 with | none => false | some v => eqV kv.2 v)) (a.size + 1) a.iter
  else pure false

/-- `Ord` of the pairs `(&K, &V)`: first the keys, then the values. -/
def cmpPair (cmpV : V → V → Ordering) (a b : K × V) : Ordering :=
  match o.cmpK a.1 b.1 with
  | .eq => cmpV a.2 b.2
  | c => c

/-- `PartialOrd` of the pairs `(&K, &V)`; the keys are `Ord`. -/
def partialCmpPair (pcmpV : V → V → Option Ordering) (a b : K × V) : Option Ordering :=
  match o.cmpK a.1 b.1 with
  | .eq => pcmpV a.2 b.2
  | c => some c

/-- `PartialOrd for RedBlackTreeMap` (1049-1051). -/
def partialCmp (pcmpV : V → V → Option Ordering) (a b : RBMap K V) : Res (Option Ordering) :=
  iterPartialCmp (iterNext A o) (iterNext A o) (partialCmpPair o pcmpV) (a.size + 1) a.iter b.iter

/-- `Ord for RedBlackTreeMap` (1058-1060). -/
def cmp (cmpV : V → V → Ordering) (a b : RBMap K V) : Res Ordering :=
  iterCmp (iterNext A o) (iterNext A o) (cmpPair o cmpV) (a.size + 1) a.iter b.iter

/-- `Hash for RedBlackTreeMap` (1067-1076) for a hasher with state `S`; a pair hashes its key, then its value. -/
def hash {S : Type} (hashUsize : S → Nat → S) (hashK : S → K → S) (hashV : S → V → S) (m : RBMap K V) (state : S) : Res S :=
  iterHash (iterNext A o) (fun s e => hashV (hashK s e.1) e.2) (m.size + 1) m.iter (hashUsize state m.getSize)

/-- `Display for RedBlackTreeMap` (1085-1101). -/
def display (fmtK : K → String) (fmtV : V → String) (m : RBMap K V) : Res String := do
  let out ← iterDisplay (iterNext A o) (fun kv => fmtK kv.1 ++ ": " ++ fmtV kv.2) (m.size + 1) m.iter true "{"
  pure (out ++ "}")

/-- The loop of `from_iter` (1126-1128), and of `rbt_map!`, `rbt_map_sync!` (34-70). -/
def insertAll (m : RBMap K V) : List (K × V) → Res (RBMap K V)
  | [] => pure m
  | (k, v) :: kvs => do
    let m ← m.insertMut o k v
    m.insertAll kvs

/-- `FromIterator for RedBlackTreeMap` (1123-1131), `rbt_map!`, `rbt_map_sync!` (34-70). -/
def fromIter (kvs : List (K × V)) : Res (RBMap K V) := (new : RBMap K V).insertAll o kvs

/-- `Serialize for RedBlackTreeMap` (1500-1502): `collect_map` emits the pairs of the iterator. -/
def serialize (m : RBMap K V) : Res (List (K × V)) := drain (iterNext A o) (m.size + 1) m.iter

/-- The loop of `visit_map` (1547-1549); the input is the sequence of results of `next_entry()`. -/
def visitLoop {E : Type} (m : RBMap K V) : List (Except E (K × V)) → Res (Except E (RBMap K V))
  | [] => pure (.ok m)
  | .error e :: _ => pure (.error e)
  | .ok (k, v) :: input => do
    let m ← m.insertMut o k v
    m.visitLoop input

/-- `Deserialize for RedBlackTreeMap` (1511-1552). -/
def deserialize {E : Type} (input : List (Except E (K × V))) : Res (Except E (RBMap K V)) := (new : RBMap K V).visitLoop o input

/-- Runs one operation on one version.  The documented panic of `map[key]` (and only that panic) becomes the answer `panicked`. -/
def step (m : RBMap K V) : MapOp K V Q → Res (MapRet K V × Effect (RBMap K V))
  | .insert k v => do
    let m' ← m.insert o k v
    pure (.unit, .fresh m')
  | .insertMut k v => do
    let m' ← m.insertMut o k v
    pure (.unit, .update m')
  | .remove q => do
    let m' ← m.remove A o q
    pure (.unit, .fresh m')
  | .removeMut q => do
    let (b, m') ← m.removeMut A o q
    pure (.bool b, .update m')
  | .getMut q f =>
    let (r, m') := m.getMut o q f
    pure (.optV r, .update m')
  | .clone => pure (.unit, .fresh m.clone)
  | .get q => pure (.optV (m.get o q), .keep)
  | .getKeyValue q => pure (.optKV (m.getKeyValue o q), .keep)
  | .containsKey q => pure (.bool (m.containsKey o q), .keep)
  | .index q =>
    match m.index o q with
    | .ok v => .ok (.optV (some v), .keep)
    | .error .unwrapNone => .ok (.panicked, .keep)
    | .error e => .error e
  | .size => pure (.nat m.getSize, .keep)
  | .isEmpty => pure (.bool m.isEmpty, .keep)

end RBMap
end Rpds
