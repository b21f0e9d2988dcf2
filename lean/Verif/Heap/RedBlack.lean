import Verif.Heap.Tree
import Verif.Heap.ListLemmas
import Verif.RedBlack.Set
/-
`rpds::RedBlackTreeMap` (/repo/src/map/red_black_tree_map/mod.rs; line numbers below are of that file) and `rpds::RedBlackTreeSet`
on the reference counted heap: the same functions as in `Verif/RedBlack/Model.lean`, with every pointer operation spelled out.

A `Node` is a cell with its color as label; it points to the cell of its entry and to its children.  `SharedPointer::make_mut` opens a
cell, and the content is closed again when the borrow ends.  While a node is open its fields are a value `HRBNode`.  Functions
that recurse over the tree take `fuel`, and panic when there is a node but no fuel left; `HRBMap.fuel`, four times the logarithm of
the size of the map, is always enough (the refinement proof shows that this panic does not happen).
-/
set_option autoImplicit false
namespace Rpds
namespace Heap

/-- Cells of a red-black tree: entries and nodes (114-128).  A node knows which of its children exist. -/
inductive RLabel (K V : Type) where
  | entry (k : K) (v : V)
  | node (c : Color) (left right : Bool)
  deriving DecidableEq, Repr

/-- A `Node` held by value or borrowed (120-128). -/
structure HRBNode where
  entry : Addr
  color : Color
  left : Option Addr
  right : Option Addr
  deriving DecidableEq, Repr

namespace HRBNode
variable {K V : Type}

/-- The label of the cell of a node. -/
def label (n : HRBNode) : RLabel K V := .node n.color n.left.isSome n.right.isSome

/-- The pointers in the cell of a node. -/
def ptrs (n : HRBNode) : List Addr := n.entry :: (n.left.toList ++ n.right.toList)

/-- The fields of a node from the content of its cell. -/
def ofContent : Content (RLabel K V) → Option HRBNode
  | (.node c false false, [e]) => some ⟨e, c, none, none⟩
  | (.node c true false, [e, l]) => some ⟨e, c, some l, none⟩
  | (.node c false true, [e, r]) => some ⟨e, c, none, some r⟩
  | (.node c true true, [e, l, r]) => some ⟨e, c, some l, some r⟩
  | _ => none

end HRBNode

section model
variable {K V Q : Type}

/-- `SharedPointer::new(node)`. -/
def newNode (n : HRBNode) : Prog (RLabel K V) Addr := new n.label n.ptrs

/-- `SharedPointer::make_mut(&mut p)`: the pointer afterwards and the fields of the node. -/
def openNode (p : Addr) : Prog (RLabel K V) (Addr × HRBNode) :=
  Prog.bind (makeMut p) fun x =>
    match HRBNode.ofContent x.2 with
    | some n => .ret (x.1, n)
    | none => .panic

/-- The end of a borrow made by `make_mut`; the fields are now those of `n`. -/
def closeNode (q : Addr) (n : HRBNode) : Prog (RLabel K V) Unit := close q n.label n.ptrs

/-- Reads the fields of a node. -/
def readNode (p : Addr) : Prog (RLabel K V) HRBNode :=
  Prog.bind (read p) fun c =>
    match HRBNode.ofContent c with
    | some n => .ret n
    | none => .panic

/-- Reads an entry. -/
def readEntry (p : Addr) : Prog (RLabel K V) (K × V) :=
  Prog.bind (read p) fun c =>
    match c.1 with
    | .entry k v => .ret (k, v)
    | .node _ _ _ => .panic

/-- `Node::left_color`, `Node::right_color` (161-167) for the child `p`. -/
def colorOf : Option Addr → Prog (RLabel K V) (Option Color)
  | none => .ret none
  | some p => Prog.bind (readNode p) fun n => .ret (some n.color)

/-- `self.left.as_ref().and_then(|l| l.left_color())` (271) for the child `p`. -/
def leftColorOf : Option Addr → Prog (RLabel K V) (Option Color)
  | none => .ret none
  | some p => Prog.bind (readNode p) fun n => colorOf n.left

/-- `self.left.as_ref().and_then(|l| l.right_color())` (272) for the child `p`. -/
def rightColorOf : Option Addr → Prog (RLabel K V) (Option Color)
  | none => .ret none
  | some p => Prog.bind (readNode p) fun n => colorOf n.right

/-- Which case of `balance` applies (277-365); 0 is the last one, which does nothing. -/
def balanceCase : Option Color → Option Color → Option Color → Option Color → Option Color → Option Color → Nat
  | some .red, some .red, _, _, _, _ => 1
  | some .red, _, some .red, _, _, _ => 2
  | _, _, _, some .red, some .red, _ => 3
  | _, _, _, some .red, _, some .red => 4
  | _, _, _, _, _, _ => 0

/-- Case 1 of `Node::balance` (283-300). -/
def hbalance1 (self : HRBNode) : Prog (RLabel K V) HRBNode :=
  Prog.bind (lift (unwrap self.left)) fun node_l_ptr =>
  let self := { self with left := none }
  Prog.bind (openNode node_l_ptr) fun x =>
  let node_l := x.2
  Prog.bind (lift (unwrap node_l.left)) fun node_l_l_ptr =>
  let node_l := { node_l with left := none }
  Prog.bind (openNode node_l_l_ptr) fun y =>
  let node_l_l := y.2
  let self := { self with color := .red }
  let node_l := { node_l with color := .black }
  let node_l_l := { node_l_l with color := .black }
  let (self, node_l) := ({ self with entry := node_l.entry }, { node_l with entry := self.entry })
  let node_l := { node_l with left := node_l.right, right := node_l.left }
  let (self, node_l) := ({ self with right := node_l.right }, { node_l with right := self.right })
  Prog.bind (closeNode y.1 node_l_l) fun _ =>
  Prog.bind (closeNode x.1 node_l) fun _ =>
  let self := { self with left := some y.1 }
  let self := { self with right := some x.1 }
  .ret self

/-- Case 2 of `Node::balance` (303-321). -/
def hbalance2 (self : HRBNode) : Prog (RLabel K V) HRBNode :=
  Prog.bind (lift (unwrap self.left)) fun node_l_ptr =>
  let self := { self with left := none }
  Prog.bind (openNode node_l_ptr) fun x =>
  let node_l := x.2
  Prog.bind (lift (unwrap node_l.right)) fun node_l_r_ptr =>
  let node_l := { node_l with right := none }
  Prog.bind (openNode node_l_r_ptr) fun y =>
  let node_l_r := y.2
  let self := { self with color := .red }
  let node_l := { node_l with color := .black }
  let node_l_r := { node_l_r with color := .black }
  let (self, node_l_r) := ({ self with entry := node_l_r.entry }, { node_l_r with entry := self.entry })
  let node_l_r := { node_l_r with left := node_l_r.right, right := node_l_r.left }
  let (node_l, node_l_r) := ({ node_l with right := node_l_r.right }, { node_l_r with right := node_l.right })
  let (self, node_l_r) := ({ self with right := node_l_r.right }, { node_l_r with right := self.right })
  Prog.bind (closeNode y.1 node_l_r) fun _ =>
  Prog.bind (closeNode x.1 node_l) fun _ =>
  let self := { self with right := some y.1 }
  let self := { self with left := some x.1 }
  .ret self

/-- Case 3 of `Node::balance` (324-342). -/
def hbalance3 (self : HRBNode) : Prog (RLabel K V) HRBNode :=
  Prog.bind (lift (unwrap self.right)) fun node_r_ptr =>
  let self := { self with right := none }
  Prog.bind (openNode node_r_ptr) fun x =>
  let node_r := x.2
  Prog.bind (lift (unwrap node_r.left)) fun node_r_l_ptr =>
  let node_r := { node_r with left := none }
  Prog.bind (openNode node_r_l_ptr) fun y =>
  let node_r_l := y.2
  let self := { self with color := .red }
  let node_r := { node_r with color := .black }
  let node_r_l := { node_r_l with color := .black }
  let (self, node_r_l) := ({ self with entry := node_r_l.entry }, { node_r_l with entry := self.entry })
  let (node_r, node_r_l) := ({ node_r with left := node_r_l.right }, { node_r_l with right := node_r.left })
  let node_r_l := { node_r_l with left := node_r_l.right, right := node_r_l.left }
  let (self, node_r_l) := ({ self with left := node_r_l.left }, { node_r_l with left := self.left })
  Prog.bind (closeNode y.1 node_r_l) fun _ =>
  Prog.bind (closeNode x.1 node_r) fun _ =>
  let self := { self with left := some y.1 }
  let self := { self with right := some x.1 }
  .ret self

/-- Case 4 of `Node::balance` (345-362). -/
def hbalance4 (self : HRBNode) : Prog (RLabel K V) HRBNode :=
  Prog.bind (lift (unwrap self.right)) fun node_r_ptr =>
  let self := { self with right := none }
  Prog.bind (openNode node_r_ptr) fun x =>
  let node_r := x.2
  Prog.bind (lift (unwrap node_r.right)) fun node_r_r_ptr =>
  let node_r := { node_r with right := none }
  Prog.bind (openNode node_r_r_ptr) fun y =>
  let node_r_r := y.2
  let self := { self with color := .red }
  let node_r := { node_r with color := .black }
  let node_r_r := { node_r_r with color := .black }
  let (self, node_r) := ({ self with entry := node_r.entry }, { node_r with entry := self.entry })
  let node_r := { node_r with left := node_r.right, right := node_r.left }
  let (self, node_r) := ({ self with left := node_r.left }, { node_r with left := self.left })
  Prog.bind (closeNode y.1 node_r_r) fun _ =>
  Prog.bind (closeNode x.1 node_r) fun _ =>
  let self := { self with right := some y.1 }
  let self := { self with left := some x.1 }
  .ret self

/-- The match of `Node::balance` (277-366). -/
def hbalanceIn (self : HRBNode) (case : Nat) : Prog (RLabel K V) HRBNode :=
  match case with
  | 1 => hbalance1 self
  | 2 => hbalance2 self
  | 3 => hbalance3 self
  | 4 => hbalance4 self
  | _ => .ret self

/-- `Node::balance` (267-369). -/
def hbalance (self : HRBNode) : Prog (RLabel K V) HRBNode :=
  match self.color with
  | .black =>
    Prog.bind (colorOf self.left) fun color_l =>
    Prog.bind (leftColorOf self.left) fun color_l_l =>
    Prog.bind (rightColorOf self.left) fun color_l_r =>
    Prog.bind (colorOf self.right) fun color_r =>
    Prog.bind (leftColorOf self.right) fun color_r_l =>
    Prog.bind (rightColorOf self.right) fun color_r_r =>
    hbalanceIn self (balanceCase color_l color_l_l color_l_r color_r color_r_l color_r_r)
  | .red => .ret self

/-- The end of `ins` (384-413): balance if the key is new, blacken the root. -/
def hinsDone (is_root is_new_key : Bool) (node : HRBNode) : Prog (RLabel K V) (Bool × HRBNode) :=
  Prog.bind (if is_new_key then hbalance node else .ret node) fun node =>
  .ret (is_new_key, if is_root then { node with color := .black } else node)

/-- `ins` inside `Node::insert` (373-427); `sub` is the recursive call. -/
def hinsStep (o : OrdKeys K Q) (k : K) (v : V) (sub : Option Addr → Bool → Prog (RLabel K V) (Bool × Option Addr)) :
    Option Addr → Bool → Prog (RLabel K V) (Bool × Option Addr)
  | none, is_root =>
    Prog.bind (new (.entry k v) []) fun e =>
    Prog.bind (newNode ⟨e, if is_root then .black else .red, none, none⟩) fun p => .ret (true, some p)
  | some p, is_root =>
    Prog.bind (openNode p) fun x =>
    let node := x.2
    Prog.bind (readEntry node.entry) fun e =>
    Prog.bind (match o.cmpK k e.1 with
      | .lt =>
        Prog.bind (sub node.left false) fun y => hinsDone is_root y.1 { node with left := y.2 }
      | .eq =>
        Prog.bind (new (.entry k v) []) fun e' =>
        Prog.bind (drop node.entry) fun _ => hinsDone is_root false { node with entry := e' }
      | .gt =>
        Prog.bind (sub node.right false) fun y => hinsDone is_root y.1 { node with right := y.2 }) fun z =>
    Prog.bind (closeNode x.1 z.2) fun _ => .ret (z.1, some x.1)

/-- `ins` inside `Node::insert` (373-427). -/
def hins (o : OrdKeys K Q) (k : K) (v : V) : (fuel : Nat) → Option Addr → Bool → Prog (RLabel K V) (Bool × Option Addr)
  | 0 => hinsStep o k v fun _ _ => .panic
  | fuel + 1 => hinsStep o k v (hins o k v fuel)

/-- `SharedPointer::make_mut(p.as_mut().unwrap()).color = c`; answers the pointer. -/
def hsetColor (c : Color) (p : Option Addr) : Prog (RLabel K V) (Option Addr) :=
  Prog.bind (lift (unwrap p)) fun p =>
  Prog.bind (openNode p) fun x =>
  Prog.bind (closeNode x.1 { x.2 with color := c }) fun _ => .ret (some x.1)

section arch
variable (Ar : Arch)

/-- `Node::remove_balance` (547-562). -/
def hremoveBalance (self : HRBNode) : Prog (RLabel K V) HRBNode :=
  Prog.bind (colorOf self.left) fun color_l =>
  Prog.bind (colorOf self.right) fun color_r =>
  if color_l = some .red ∧ color_r = some .red then
    Prog.bind (hsetColor .black self.left) fun left =>
    Prog.bind (hsetColor .black self.right) fun right => .ret { self with left := left, right := right, color := .red }
  else
    Prog.bind (lift (Ar.debugAssert (self.color == .black))) fun _ => hbalance self

/-- The third arm of `Node::remove_balance_left` (589-610). -/
def hremoveBalanceLeft3 (self : HRBNode) : Prog (RLabel K V) HRBNode :=
  Prog.bind (lift (unwrap self.right)) fun self_r_ptr =>
  Prog.bind (openNode self_r_ptr) fun x =>
  let self_r := x.2
  Prog.bind (lift (unwrap self_r.left)) fun self_r_l_ptr =>
  let self_r := { self_r with left := none }
  Prog.bind (openNode self_r_l_ptr) fun y =>
  let self_r_l := y.2
  let new_r_l := self_r_l.right
  let self_r_l := { self_r_l with right := none }
  let self_r := { self_r with color := .black }
  let self_r := { self_r with left := new_r_l }
  Prog.bind (hsetColor .red self_r.right) fun right =>
  let self_r := { self_r with right := right }
  Prog.bind (hremoveBalance Ar self_r) fun self_r =>
  let self := { self with color := .red }
  let self_r_l := { self_r_l with right := self_r_l.left, left := none }
  let self_r_l := { self_r_l with left := self.left }
  let self := { self with left := none }
  let (self, self_r_l) := ({ self with entry := self_r_l.entry }, { self_r_l with entry := self.entry })
  Prog.bind (closeNode y.1 self_r_l) fun _ =>
  let self := { self with left := some y.1 }
  Prog.bind (closeNode x.1 self_r) fun _ =>
  .ret { self with right := some x.1 }

/-- Which arm of `Node::remove_balance_left` applies (574-611); 0 is `unreachable!()`. -/
def leftCase : Option Color → Option Color → Option Color → Nat
  | some .red, _, _ => 1
  | _, some .black, _ => 2
  | _, some .red, some .black => 3
  | _, _, _ => 0

/-- The arms of `Node::remove_balance_left` (574-611). -/
def hremoveBalanceLeftIn (self : HRBNode) (case : Nat) : Prog (RLabel K V) HRBNode :=
  match case with
  | 1 => Prog.bind (hsetColor .black self.left) fun self_l => .ret { self with color := .red, left := self_l }
  | 2 => Prog.bind (hsetColor .red self.right) fun self_r => hremoveBalance Ar { self with color := .black, right := self_r }
  | 3 => hremoveBalanceLeft3 Ar self
  | _ => .panic

/-- `Node::remove_balance_left` (564-613). -/
def hremoveBalanceLeft (self : HRBNode) : Prog (RLabel K V) HRBNode :=
  Prog.bind (colorOf self.left) fun color_l =>
  Prog.bind (colorOf self.right) fun color_r =>
  Prog.bind (leftColorOf self.right) fun color_r_l => hremoveBalanceLeftIn Ar self (leftCase color_l color_r color_r_l)

/-- The third arm of `Node::remove_balance_right` (640-661). -/
def hremoveBalanceRight3 (self : HRBNode) : Prog (RLabel K V) HRBNode :=
  Prog.bind (lift (unwrap self.left)) fun self_l_ptr =>
  Prog.bind (openNode self_l_ptr) fun x =>
  let self_l := x.2
  Prog.bind (lift (unwrap self_l.right)) fun self_l_r_ptr =>
  let self_l := { self_l with right := none }
  Prog.bind (openNode self_l_r_ptr) fun y =>
  let self_l_r := y.2
  let new_l_r := self_l_r.left
  let self_l_r := { self_l_r with left := none }
  let self_l := { self_l with color := .black }
  let self_l := { self_l with right := new_l_r }
  Prog.bind (hsetColor .red self_l.left) fun left =>
  let self_l := { self_l with left := left }
  Prog.bind (hremoveBalance Ar self_l) fun self_l =>
  let self := { self with color := .red }
  let self_l_r := { self_l_r with left := self_l_r.right, right := none }
  let self_l_r := { self_l_r with right := self.right }
  let self := { self with right := none }
  let (self, self_l_r) := ({ self with entry := self_l_r.entry }, { self_l_r with entry := self.entry })
  Prog.bind (closeNode y.1 self_l_r) fun _ =>
  let self := { self with right := some y.1 }
  Prog.bind (closeNode x.1 self_l) fun _ =>
  .ret { self with left := some x.1 }

/-- Which arm of `Node::remove_balance_right` applies (625-662); 0 is `unreachable!()`. -/
def rightCase : Option Color → Option Color → Option Color → Nat
  | _, _, some .red => 1
  | some .black, _, _ => 2
  | some .red, some .black, _ => 3
  | _, _, _ => 0

/-- The arms of `Node::remove_balance_right` (625-662). -/
def hremoveBalanceRightIn (self : HRBNode) (case : Nat) : Prog (RLabel K V) HRBNode :=
  match case with
  | 1 => Prog.bind (hsetColor .black self.right) fun self_r => .ret { self with color := .red, right := self_r }
  | 2 => Prog.bind (hsetColor .red self.left) fun self_l => hremoveBalance Ar { self with color := .black, left := self_l }
  | 3 => hremoveBalanceRight3 Ar self
  | _ => .panic

/-- `Node::remove_balance_right` (615-664). -/
def hremoveBalanceRight (self : HRBNode) : Prog (RLabel K V) HRBNode :=
  Prog.bind (colorOf self.right) fun color_r =>
  Prog.bind (colorOf self.left) fun color_l =>
  Prog.bind (rightColorOf self.left) fun color_l_r => hremoveBalanceRightIn Ar self (rightCase color_l color_l_r color_r)

/-- `utils::replace(dest, src)` (/repo/src/utils/mod.rs:10-17): takes the content of `src`; what was in `dest` ends up in the cell of
`src`, whose pointer is dropped at the end. -/
def hreplace (dest : HRBNode) (src : Addr) : Prog (RLabel K V) HRBNode :=
  Prog.bind (openNode src) fun x =>
  Prog.bind (closeNode x.1 dest) fun _ =>
  Prog.bind (drop x.1) fun _ => .ret x.2

/-- The arm `(B, R)` of `remove_fuse` (455-465). -/
def hfuseBR (sub : HRBNode → Option Addr → Option Addr → Prog (RLabel K V) (Bool × HRBNode)) (node : HRBNode) (l_ptr r_ptr : Addr) :
    Prog (RLabel K V) (Bool × HRBNode) :=
  Prog.bind (openNode r_ptr) fun x =>
  let r := x.2
  let rl := r.left
  let r := { r with left := none }
  Prog.bind (sub node (some l_ptr) rl) fun y =>
  let (node, r) := (r, y.2)
  Prog.bind (closeNode x.1 r) fun _ => .ret (true, { node with left := some x.1 })

/-- The arm `(R, B)` of `remove_fuse` (466-476). -/
def hfuseRB (sub : HRBNode → Option Addr → Option Addr → Prog (RLabel K V) (Bool × HRBNode)) (node : HRBNode) (l_ptr r_ptr : Addr) :
    Prog (RLabel K V) (Bool × HRBNode) :=
  Prog.bind (openNode l_ptr) fun x =>
  let l := x.2
  let lr := l.right
  let l := { l with right := none }
  Prog.bind (sub node lr (some r_ptr)) fun y =>
  let (node, l) := (l, y.2)
  Prog.bind (closeNode x.1 l) fun _ => .ret (true, { node with right := some x.1 })

/-- The arms `R if fused` (486-495, 516-525): `ql`, `qr` are the pointers to the open cells of `l` and `r`. -/
def hfuseRed (node : HRBNode) (ql : Addr) (l : HRBNode) (qr : Addr) (r : HRBNode) : Prog (RLabel K V) HRBNode :=
  let fl := node.left
  let fr := node.right
  Prog.bind (closeNode ql { l with right := fl }) fun _ =>
  Prog.bind (closeNode qr { r with left := fr }) fun _ => .ret { node with left := some ql, right := some qr }

/-- The arms `_` up to `node.right = Some(r_ptr)` (496-505, 526-535).  If nothing was fused then `l_ptr`, which now points to the
removed node, is still there; it is dropped at the end of the arm. -/
def hfuseSwap (fused : Bool) (node : HRBNode) (ql : Addr) (l : HRBNode) (qr : Addr) (r : HRBNode) : Prog (RLabel K V) HRBNode :=
  let (l, node) := (node, l)
  Prog.bind (closeNode ql l) fun _ =>
  let r := if fused then { r with left := some ql } else r
  Prog.bind (closeNode qr r) fun _ => .ret { node with right := some qr }

/-- The end of an arm: `l_ptr` is dropped if it was not moved into the tree. -/
def dropUnless (fused : Bool) (p : Addr) : Prog (RLabel K V) Unit := if fused then .ret () else drop p

/-- The arms `(R, R)` and `(B, B)` of `remove_fuse` (477-507, 508-541). -/
def hfuseSame (c : Color) (sub : HRBNode → Option Addr → Option Addr → Prog (RLabel K V) (Bool × HRBNode)) (node : HRBNode)
    (l_ptr r_ptr : Addr) : Prog (RLabel K V) (Bool × HRBNode) :=
  Prog.bind (openNode r_ptr) fun x =>
  let r := x.2
  let rl := r.left
  let r := { r with left := none }
  Prog.bind (openNode l_ptr) fun y =>
  let l := y.2
  let lr := l.right
  let l := { l with right := none }
  Prog.bind (sub node lr rl) fun z =>
  let fused := z.1
  let node := z.2
  if node.color == .red && fused then
    Prog.bind (hfuseRed node y.1 l x.1 r) fun node => .ret (true, node)
  else
    Prog.bind (hfuseSwap fused node y.1 l x.1 r) fun node =>
    match c with
    | .red => Prog.bind (dropUnless fused y.1) fun _ => .ret (true, node)
    | .black =>
      Prog.bind (hremoveBalanceLeft Ar { node with color := .red }) fun node =>
      Prog.bind (dropUnless fused y.1) fun _ => .ret (true, node)

/-- `Node::remove_fuse` (433-545); `sub` is the recursive call. -/
def hremoveFuseStep (sub : HRBNode → Option Addr → Option Addr → Prog (RLabel K V) (Bool × HRBNode)) (node : HRBNode) :
    Option Addr → Option Addr → Prog (RLabel K V) (Bool × HRBNode)
  | none, none => .ret (false, node)
  | none, some r_ptr => Prog.bind (hreplace node r_ptr) fun node => .ret (true, node)
  | some l_ptr, none => Prog.bind (hreplace node l_ptr) fun node => .ret (true, node)
  | some l_ptr, some r_ptr =>
    Prog.bind (readNode l_ptr) fun l =>
    Prog.bind (readNode r_ptr) fun r =>
    match l.color, r.color with
    | .black, .red => hfuseBR sub node l_ptr r_ptr
    | .red, .black => hfuseRB sub node l_ptr r_ptr
    | .red, .red => hfuseSame Ar .red sub node l_ptr r_ptr
    | .black, .black => hfuseSame Ar .black sub node l_ptr r_ptr

/-- `Node::remove_fuse` (433-545). -/
def hremoveFuse : (fuel : Nat) → HRBNode → Option Addr → Option Addr → Prog (RLabel K V) (Bool × HRBNode)
  | 0 => hremoveFuseStep Ar fun _ _ _ => .panic
  | fuel + 1 => hremoveFuseStep Ar (hremoveFuse fuel)

/-- `del_left` (674-690); `sub` is `del`. -/
def hdelLeft (sub : Option Addr → Prog (RLabel K V) (Bool × Option Addr)) (node : HRBNode) : Prog (RLabel K V) (Bool × HRBNode) :=
  Prog.bind (colorOf node.left) fun original_left_color =>
  Prog.bind (sub node.left) fun y =>
  let node := { node with left := y.2 }
  let node := { node with color := .red }
  Prog.bind (if original_left_color = some .black then hremoveBalanceLeft Ar node else .ret node) fun node => .ret (y.1, node)

/-- `del_right` (692-709); `sub` is `del`. -/
def hdelRight (sub : Option Addr → Prog (RLabel K V) (Bool × Option Addr)) (node : HRBNode) : Prog (RLabel K V) (Bool × HRBNode) :=
  Prog.bind (colorOf node.right) fun original_right_color =>
  Prog.bind (sub node.right) fun y =>
  let node := { node with right := y.2 }
  let node := { node with color := .red }
  Prog.bind (if original_right_color = some .black then hremoveBalanceRight Ar node else .ret node) fun node => .ret (y.1, node)

/-- The end of `del` (738-751): blacken the root, end of the borrow, `*node = None` drops the pointer. -/
def hdelDone (is_root make_node_none : Bool) (q : Addr) (node : HRBNode) : Prog (RLabel K V) (Option Addr) :=
  Prog.bind (closeNode q (if is_root then { node with color := .black } else node)) fun _ =>
  if make_node_none then Prog.bind (drop q) fun _ => .ret none else .ret (some q)

/-- `del` inside `Node::remove` (711-752); `sub` is the recursive call. -/
def hdelStep (o : OrdKeys K Q) (key : Q) (fuel : Nat) (sub : Option Addr → Bool → Prog (RLabel K V) (Bool × Option Addr)) :
    Option Addr → Bool → Prog (RLabel K V) (Bool × Option Addr)
  | none, _ => .ret (false, none)
  | some p, is_root =>
    Prog.bind (openNode p) fun x =>
    let node := x.2
    Prog.bind (readEntry node.entry) fun e =>
    match o.cmpQ key (o.borrow e.1) with
    | .lt =>
      Prog.bind (hdelLeft Ar (fun p => sub p false) node) fun y =>
      Prog.bind (hdelDone is_root false x.1 y.2) fun p => .ret (y.1, p)
    | .eq =>
      let left := node.left
      let right := node.right
      Prog.bind (hremoveFuse Ar fuel { node with left := none, right := none } left right) fun y =>
      Prog.bind (hdelDone is_root (!y.1) x.1 y.2) fun p => .ret (true, p)
    | .gt =>
      Prog.bind (hdelRight Ar (fun p => sub p false) node) fun y =>
      Prog.bind (hdelDone is_root false x.1 y.2) fun p => .ret (y.1, p)

/-- `del` inside `Node::remove` (711-752). -/
def hdel (o : OrdKeys K Q) (key : Q) : (fuel : Nat) → Option Addr → Bool → Prog (RLabel K V) (Bool × Option Addr)
  | 0 => hdelStep Ar o key 0 fun _ _ => .panic
  | fuel + 1 => hdelStep Ar o key (fuel + 1) (hdel o key fuel)

end arch

/-- `Node::get` (169-179) with the read of the entry; `sub` is the recursive call. -/
def hgetStep (o : OrdKeys K Q) (key : Q) (sub : Option Addr → Prog (RLabel K V) (Option (K × V))) :
    Option Addr → Prog (RLabel K V) (Option (K × V))
  | none => .ret none
  | some p =>
    Prog.bind (readNode p) fun node =>
    Prog.bind (readEntry node.entry) fun e =>
    match o.cmpQ key (o.borrow e.1) with
    | .lt => sub node.left
    | .eq => .ret (some e)
    | .gt => sub node.right

/-- `Node::get` (169-179). -/
def hget (o : OrdKeys K Q) (key : Q) : (fuel : Nat) → Option Addr → Prog (RLabel K V) (Option (K × V))
  | 0 => hgetStep o key fun _ => .panic
  | fuel + 1 => hgetStep o key (hget o key fuel)

/-- `Node::first` (181-186) with the read of the entry; `sub` is the recursive call. -/
def hfirstStep (sub : Option Addr → Prog (RLabel K V) (Option (K × V))) : Option Addr → Prog (RLabel K V) (Option (K × V))
  | none => .ret none
  | some p =>
    Prog.bind (readNode p) fun node =>
    match node.left with
    | some l => sub (some l)
    | none => Prog.bind (readEntry node.entry) fun e => .ret (some e)

/-- `Node::first` (181-186). -/
def hfirst : (fuel : Nat) → Option Addr → Prog (RLabel K V) (Option (K × V))
  | 0 => hfirstStep fun _ => .panic
  | fuel + 1 => hfirstStep (hfirst fuel)

/-- `Node::last` (188-193) with the read of the entry; `sub` is the recursive call. -/
def hlastStep (sub : Option Addr → Prog (RLabel K V) (Option (K × V))) : Option Addr → Prog (RLabel K V) (Option (K × V))
  | none => .ret none
  | some p =>
    Prog.bind (readNode p) fun node =>
    match node.right with
    | some r => sub (some r)
    | none => Prog.bind (readEntry node.entry) fun e => .ret (some e)

/-- `Node::last` (188-193). -/
def hlast : (fuel : Nat) → Option Addr → Prog (RLabel K V) (Option (K × V))
  | 0 => hlastStep fun _ => .panic
  | fuel + 1 => hlastStep (hlast fuel)

/-- A write of `f old` through the reference to the value of an entry. -/
def modifyEntry (f : V → V) (c : Content (RLabel K V)) : Prog (RLabel K V) (V × Content (RLabel K V)) :=
  match c.1 with
  | .entry k v => .ret (v, .entry k (f v), c.2)
  | .node _ _ _ => .panic

/-- `Node::get_mut` (764-778) behind `make_mut`, followed by a write of `f old` through the reference; `sub` is the recursive call. -/
def hgetMutStep (o : OrdKeys K Q) (key : Q) (f : V → V) (sub : Option Addr → Prog (RLabel K V) (Option V × Option Addr)) :
    Option Addr → Prog (RLabel K V) (Option V × Option Addr)
  | none => .ret (none, none)
  | some p =>
    Prog.bind (openNode p) fun x =>
    let node := x.2
    Prog.bind (readEntry node.entry) fun e =>
    Prog.bind (match o.cmpQ key (o.borrow e.1) with
      | .lt => Prog.bind (sub node.left) fun y => .ret (y.1, { node with left := y.2 })
      | .eq => Prog.bind (modifyPtr node.entry (modifyEntry f)) fun y => .ret (some y.1, { node with entry := y.2 })
      | .gt => Prog.bind (sub node.right) fun y => .ret (y.1, { node with right := y.2 })) fun z =>
    Prog.bind (closeNode x.1 z.2) fun _ => .ret (z.1, some x.1)

/-- `Node::get_mut` (764-778). -/
def hgetMut (o : OrdKeys K Q) (key : Q) (f : V → V) : (fuel : Nat) → Option Addr → Prog (RLabel K V) (Option V × Option Addr)
  | 0 => hgetMutStep o key f fun _ => .panic
  | fuel + 1 => hgetMutStep o key f (hgetMut o key f fuel)

/-- Reads a node and what is below it. -/
def hviewStep (sub : Option Addr → Prog (RLabel K V) (RBTree K V)) : Option Addr → Prog (RLabel K V) (RBTree K V)
  | none => .ret .none
  | some p =>
    Prog.bind (readNode p) fun node =>
    Prog.bind (readEntry node.entry) fun e =>
    Prog.bind (sub node.left) fun l =>
    Prog.bind (sub node.right) fun r => .ret (.some e node.color l r)

/-- Reads a whole tree (all the reads an iterator over it can make). -/
def hview : (fuel : Nat) → Option Addr → Prog (RLabel K V) (RBTree K V)
  | 0 => hviewStep fun _ => .panic
  | fuel + 1 => hviewStep (hview fuel)

end model

/-- `struct RedBlackTreeMap` (103-109). -/
structure HRBMap where
  root : Option Addr
  size : Nat
  deriving DecidableEq, Repr

/-- Operations of `RedBlackTreeMap`: those of all maps, and those of ordered maps. -/
inductive RBOp (K V Q : Type) where
  | base (op : MapOp K V Q)
  | first
  | last
  | iter (cs : List Spec.End)
  | range (start end_ : Bound Q) (cs : List Spec.End)

/-- Answers of operations. -/
inductive RBRet (K V : Type) where
  | base (r : MapRet K V)
  /-- `size_hint` of a new iterator, the answer of each call and the `size_hint` after it -/
  | calls (n : Nat) (rs : List (Option (K × V) × Nat))
  /-- the answer of each call -/
  | items (rs : List (Option (K × V)))
  /-- the operation panicked as documented (`range`) -/
  | panicked
  deriving DecidableEq, Repr

/-- All operations on the value model. -/
def RBMap.stepAll {K V Q : Type} (Ar : Arch) (o : OrdKeys K Q) (m : RBMap K V) :
    RBOp K V Q → Res (RBRet K V × Effect (RBMap K V))
  | .base op => do
    let x ← m.step Ar o op
    pure (.base x.1, x.2)
  | .first => pure (.base (.optKV m.first), .keep)
  | .last => pure (.base (.optKV m.last), .keep)
  | .iter cs => do
    let rs ← deCalls (RBMap.iterNext Ar o) (RBMap.iterNextBack Ar o) (fun it => .ok it.sizeHint) cs m.iter
    pure (.calls m.iter.sizeHint rs, .keep)
  | .range start end_ cs =>
    match m.range o start end_ with
    | .ok it => do
      let rs ← deAnswers (RBRangeIter.next Ar o) (RBRangeIter.nextBack Ar o) cs it
      pure (.items rs.1, .keep)
    | .error _ => pure (.panicked, .keep)

namespace HRBMap
variable {K V Q : Type} (Ar : Arch) (o : OrdKeys K Q)

/-- `new_with_ptr_kind` (807-809). -/
def new : Prog (RLabel K V) HRBMap := .ret ⟨none, 0⟩

/-- The fuel for the functions that follow one path: twice the height of a red-black tree of this size. -/
def fuel (m : HRBMap) : Nat := 4 * Nat.log2 (m.size + 1)

/-- `Clone for RedBlackTreeMap` (1006-1008). -/
def clone (m : HRBMap) : Prog (RLabel K V) HRBMap := Prog.bind (cloneOpt m.root) fun _ => .ret ⟨m.root, m.size⟩

/-- The drop glue of a map. -/
def dropMap (m : HRBMap) : Prog (RLabel K V) Unit := dropOpt m.root

/-- `RedBlackTreeMap::get_key_value` (821-827) with the reads. -/
def getKeyValue (m : HRBMap) (key : Q) : Prog (RLabel K V) (Option (K × V)) :=
  Prog.bind (hget o key m.fuel m.root) fun x => .ret (x.map fun e => (e.1, e.2))

/-- `RedBlackTreeMap::get` (812-818) with the reads. -/
def get (m : HRBMap) (key : Q) : Prog (RLabel K V) (Option V) :=
  Prog.bind (hget o key m.fuel m.root) fun x => .ret (x.map fun e => e.2)

/-- `RedBlackTreeMap::first` (830-832) with the reads. -/
def first (m : HRBMap) : Prog (RLabel K V) (Option (K × V)) :=
  Prog.bind (hfirst m.fuel m.root) fun x => .ret (x.map fun e => (e.1, e.2))

/-- `RedBlackTreeMap::last` (835-837) with the reads. -/
def last (m : HRBMap) : Prog (RLabel K V) (Option (K × V)) :=
  Prog.bind (hlast m.fuel m.root) fun x => .ret (x.map fun e => (e.1, e.2))

/-- `RedBlackTreeMap::insert_mut` (848-854). -/
def insertMut (m : HRBMap) (key : K) (value : V) : Prog (RLabel K V) HRBMap :=
  Prog.bind (hins o key value m.fuel m.root true) fun x =>
  .ret ⟨x.2, if x.1 then m.size + 1 else m.size⟩

/-- `RedBlackTreeMap::insert` (840-846). -/
def insert (m : HRBMap) (key : K) (value : V) : Prog (RLabel K V) HRBMap :=
  Prog.bind m.clone fun new_map => new_map.insertMut o key value

/-- `RedBlackTreeMap::remove_mut` (872-887). -/
def removeMut (m : HRBMap) (key : Q) : Prog (RLabel K V) (Bool × HRBMap) :=
  Prog.bind (hdel Ar o key m.fuel m.root true) fun x =>
  if x.1 then Prog.bind (lift (csub m.size 1)) fun size => .ret (x.1, ⟨x.2, size⟩)
  else .ret (x.1, { m with root := x.2 })

/-- `RedBlackTreeMap::remove` (857-870): if nothing was removed the changed clone is dropped. -/
def remove (m : HRBMap) (key : Q) : Prog (RLabel K V) HRBMap :=
  Prog.bind m.clone fun new_map =>
  Prog.bind (new_map.removeMut Ar o key) fun x =>
  if x.1 then .ret x.2
  else
    Prog.bind m.clone fun m' =>
    Prog.bind x.2.dropMap fun _ => .ret m'

/-- `RedBlackTreeMap::get_mut` (975-985) followed by a write of `f old` through the reference. -/
def getMut (m : HRBMap) (key : Q) (f : V → V) : Prog (RLabel K V) (Option V × HRBMap) :=
  Prog.bind (hgetMut o key f m.fuel m.root) fun x => .ret (x.1, { m with root := x.2 })

/-- The map as a value: all the reads an iterator can make.  While an iterator exists the map is borrowed, so the order of the reads
does not matter. -/
def view (m : HRBMap) : Prog (RLabel K V) (RBMap K V) := Prog.bind (hview m.size m.root) fun t => .ret ⟨t, m.size⟩

end HRBMap

section
variable {K V Q : Type} (Ar : Arch) (o : OrdKeys K Q)

/-- The operations all maps have (the same as in `RBMap.step`). -/
def rbHStep (m : HRBMap) : MapOp K V Q → Prog (RLabel K V) (MapRet K V × Effect HRBMap)
  | .insert k v => Prog.bind (m.insert o k v) fun m' => .ret (.unit, .fresh m')
  | .insertMut k v => Prog.bind (m.insertMut o k v) fun m' => .ret (.unit, .update m')
  | .remove q => Prog.bind (m.remove Ar o q) fun m' => .ret (.unit, .fresh m')
  | .removeMut q => Prog.bind (m.removeMut Ar o q) fun x => .ret (.bool x.1, .update x.2)
  | .getMut q f => Prog.bind (m.getMut o q f) fun x => .ret (.optV x.1, .update x.2)
  | .clone => Prog.bind m.clone fun m' => .ret (.unit, .fresh m')
  | .get q => Prog.bind (m.get o q) fun x => .ret (.optV x, .keep)
  | .getKeyValue q => Prog.bind (m.getKeyValue o q) fun x => .ret (.optKV x, .keep)
  | .containsKey q => Prog.bind (m.get o q) fun x => .ret (.bool x.isSome, .keep)
  | .index q =>
    Prog.bind (m.get o q) fun x =>
      match x with
      | some v => .ret (.optV (some v), .keep)
      | none => .ret (.panicked, .keep)
  | .size => .ret (.nat m.size, .keep)
  | .isEmpty => .ret (.bool (m.size == 0), .keep)

/-- All operations (the same as in `RBMap.stepAll`). -/
def rbHStepAll (m : HRBMap) : RBOp K V Q → Prog (RLabel K V) (RBRet K V × Effect HRBMap)
  | .base op => Prog.bind (rbHStep Ar o m op) fun x => .ret (.base x.1, x.2)
  | .first => Prog.bind m.first fun x => .ret (.base (.optKV x), .keep)
  | .last => Prog.bind m.last fun x => .ret (.base (.optKV x), .keep)
  | .iter cs =>
    Prog.bind m.view fun v =>
    Prog.bind (lift (deCalls (RBMap.iterNext Ar o) (RBMap.iterNextBack Ar o) (fun it => .ok it.sizeHint) cs v.iter)) fun rs =>
    .ret (.calls v.iter.sizeHint rs, .keep)
  | .range start end_ cs =>
    Prog.bind m.view fun v =>
      match v.range o start end_ with
      | .ok it =>
        Prog.bind (lift (deAnswers (RBRangeIter.next Ar o) (RBRangeIter.nextBack Ar o) cs it)) fun rs => .ret (.items rs.1, .keep)
      | .error _ => .ret (.panicked, .keep)

/-- `RedBlackTreeMap` for clients. -/
def rbImpl : Impl (RLabel K V) HRBMap (RBOp K V Q) (RBRet K V) where
  ptrs m := m.root.toList
  new := HRBMap.new
  step := rbHStepAll Ar o
  drop m := m.dropMap

end

end Heap
end Rpds
