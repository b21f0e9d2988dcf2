import Verif.Heap.Tree
import Verif.Heap.ListLemmas
import Verif.HashTrie.Set
/-
`rpds::HashTrieMap` (/repo/src/map/hash_trie_map/mod.rs; line numbers below are of that file) and `rpds::HashTrieSet` on the reference
counted heap: the same functions as in `Verif/HashTrie/Model.lean`, with every pointer operation spelled out.

A `Node` is a cell: a branch points to its subtrees, a leaf with one entry points to the cell of the entry, a leaf with colliding entries
holds a `List` (two pointers and the length).  The elements of that list are cells with an `EntryWithHash`, that is, a hash and a
pointer to the cell of the entry.  `SharedPointer::make_mut` opens a cell, and the content is closed again when the borrow ends;
while a node is open its fields are a value `HHNode`.  The sparse arrays are those of `Verif/HashTrie/Sparse.lean`, holding pointers.

Functions that recurse over the tree or a list take `fuel` and panic when it runs out; the refinement proof shows that this panic does
not happen.  When the last pointer to a leaf with collisions is dropped, the nodes of its list are freed by the loop of `Drop for List`.  The
machine of `Heap/Model.lean` frees them by recursion like all others; the machine of `Heap/Glue.lean` has the loop, and makes the same changes to
memory.
-/
set_option autoImplicit false
namespace Rpds
namespace Heap

/-- Cells of a hash trie: entries (map/entry.rs:1-5), `EntryWithHash`es in a list (202-208), list nodes (list/mod.rs:117-124), and
the three kinds of nodes (184-199); a list in a node knows which of its pointers exist. -/
inductive HLabel (K V : Type) where
  | entry (k : K) (v : V)
  | ewh (hash : UInt64)
  | lnode
  | branch (bitmap : Nat)
  | single (hash : UInt64)
  | collision (head last : Bool) (length : Nat)
  deriving DecidableEq, Repr

namespace HT

/-- An `EntryWithHash` held by value or borrowed (202-208). -/
structure HEnt where
  hash : UInt64
  ptr : Addr
  deriving DecidableEq, Repr

/-- A `Node` held by value or borrowed (184-199). -/
inductive HHNode where
  | branch (bitmap : Nat) (array : List Addr)
  | single (e : HEnt)
  | collision (l : HList)
  deriving DecidableEq, Repr

namespace HHNode
variable {K V : Type}

/-- The label of the cell of a node. -/
def label : HHNode → HLabel K V
  | .branch bm _ => .branch bm
  | .single e => .single e.hash
  | .collision l => .collision l.head.isSome l.last.isSome l.length

/-- The pointers in the cell of a node. -/
def ptrs : HHNode → List Addr
  | .branch _ ps => ps
  | .single e => [e.ptr]
  | .collision l => l.ptrs

/-- The fields of a node from the content of its cell. -/
def ofContent : Content (HLabel K V) → Option HHNode
  | (.branch bm, ps) => some (.branch bm ps)
  | (.single h, [p]) => some (.single ⟨h, p⟩)
  | (.collision false false n, []) => some (.collision ⟨none, none, n⟩)
  | (.collision true false n, [p]) => some (.collision ⟨some p, none, n⟩)
  | (.collision false true n, [q]) => some (.collision ⟨none, some q, n⟩)
  | (.collision true true n, [p, q]) => some (.collision ⟨some p, some q, n⟩)
  | _ => none

/-- `Node::is_empty` (444-453). -/
def isEmpty (Ar : Arch) : HHNode → Res Bool
  | .branch bm ps => pure ((⟨bm, ps⟩ : SparseArray Addr).size Ar == 0)
  | .single _ => pure false
  | .collision l => do
    Ar.debugAssert (decide (l.length ≥ 2))
    pure false

end HHNode

section model
variable {H K V Q : Type}

/-- Reads a node. -/
def readNode (p : Addr) : Prog (HLabel K V) HHNode :=
  Prog.bind (read p) fun c =>
    match HHNode.ofContent c with
    | some n => .ret n
    | none => .panic

/-- Reads an entry. -/
def readEntry (p : Addr) : Prog (HLabel K V) (K × V) :=
  Prog.bind (read p) fun c =>
    match c.1 with
    | .entry k v => .ret (k, v)
    | _ => .panic

/-- Reads an `EntryWithHash` in a cell; the pointer in it is borrowed. -/
def readEwh (p : Addr) : Prog (HLabel K V) HEnt :=
  Prog.bind (read p) fun c =>
    match c with
    | (.ewh h, [e]) => .ret ⟨h, e⟩
    | _ => .panic

/-- `SharedPointer::make_mut` on a pointer to a node, then `f` on the node. -/
def modNode {α : Type} (p : Addr) (f : HHNode → Prog (HLabel K V) (α × HHNode)) : Prog (HLabel K V) (α × Addr) :=
  modifyPtr p fun c =>
    match HHNode.ofContent c with
    | some n => Prog.bind (f n) fun x => .ret (x.1, (x.2.label, x.2.ptrs))
    | none => .panic

/-- `EntryWithHash::value_mut` (691-693) followed by a write of `f old`: the old value and the pointer. -/
def modEntry (f : V → V) (p : Addr) : Prog (HLabel K V) (V × Addr) :=
  modifyPtr p fun c =>
    match c with
    | (.entry k v, []) => .ret (v, (.entry k (f v), []))
    | _ => .panic

variable (o : HashKeys H K Q)

/-- `EntryWithHash::matches` (676-682): the key is only looked at if the hashes are equal. -/
def hmatches (key : Q) (keyHash : UInt64) (e : HEnt) : Prog (HLabel K V) Bool :=
  if e.hash == keyHash then Prog.bind (readEntry e.ptr) fun kv => .ret (o.eqKQ kv.1 key) else .ret false

/-! ### Lists of entries -/

/-- `push_front_mut` of an `EntryWithHash` (list/mod.rs:210-212). -/
def pushEnt (l : HList) (e : HEnt) : Prog (HLabel K V) HList :=
  Prog.bind (new (.ewh e.hash) [e.ptr]) fun v => l.pushFrontPtrMut .lnode v

/-- First loop of `list_remove_first` (480-491); the entries taken out of the list are owned. -/
def removeLoop (key : Q) (keyHash : UInt64) : Nat → HList → List HEnt → Prog (HLabel K V) (Option HEnt × HList × List HEnt)
  | 0, _, _ => .panic
  | fuel + 1, remaining, before_needle =>
    if remaining.length == 0 then .ret (none, remaining, before_needle)
    else
      Prog.bind remaining.first fun v =>
      Prog.bind (lift (unwrap v)) fun v =>
      Prog.bind (readEwh v) fun e =>
      Prog.bind (clone e.ptr) fun _ =>
      Prog.bind remaining.dropFirstMut fun x =>
      Prog.bind (hmatches o key keyHash e) fun b =>
      if b then .ret (some e, x.2, before_needle) else removeLoop key keyHash fuel x.2 (before_needle ++ [e])

/-- Second loop of `list_remove_first` (495-497), over the entries in the order they are popped. -/
def pushAll : List HEnt → HList → Prog (HLabel K V) HList
  | [], l => .ret l
  | e :: es, l => Prog.bind (pushEnt l e) fun l => pushAll es l

/-- `bucket_utils::list_remove_first` (472-500) for `|e| e.matches(key, key_hash)`. -/
def removeFirst (key : Q) (keyHash : UInt64) (list : HList) : Prog (HLabel K V) (Option HEnt × HList) :=
  Prog.bind (removeLoop o key keyHash (list.length + 1) list []) fun x =>
  Prog.bind (pushAll x.2.2.reverse x.2.1) fun l => .ret (x.1, l)

/-- Dropping an `Option<EntryWithHash>`. -/
def dropEnt : Option HEnt → Prog (HLabel K V) Unit
  | none => .ret ()
  | some e => drop e.ptr

/-- `entries.iter().find(|e| e.matches(key, key_hash))` (516) over the remaining nodes; answers what is in the entry. -/
def findEnt (key : Q) (keyHash : UInt64) : (fuel : Nat) → Option Addr → Prog (HLabel K V) (Option (K × V))
  | _, none => .ret none
  | 0, some _ => .panic
  | fuel + 1, some p =>
    Prog.bind (HList.readNode p) fun x =>
    Prog.bind (readEwh x.1) fun e =>
    Prog.bind (hmatches o key keyHash e) fun b =>
    if b then Prog.bind (readEntry e.ptr) fun kv => .ret (some kv) else findEnt key keyHash fuel x.2

/-- `entries.first_mut()` (list/mod.rs:276-280), then `value_mut` (691-693) and a write of `f old`: `make_mut` on the list node, on the
`EntryWithHash` and on the entry. -/
def firstMut (f : V → V) (l : HList) : Prog (HLabel K V) (Option V × HList) :=
  match l.head with
  | none => .ret (none, l)
  | some node =>
    Prog.bind (modifyPtr node fun c =>
      match c with
      | (nl, value :: rest) =>
        Prog.bind (modifyPtr value fun c =>
          match c with
          | (.ewh h, [e]) => Prog.bind (modEntry f e) fun x => .ret (x.1, (.ewh h, [x.2]))
          | _ => .panic) fun x => .ret (x.1, (nl, x.2 :: rest))
      | _ => .panic) fun x => .ret (some x.1, { l with head := some x.2 })

/-! ### Buckets -/

/-- `Bucket::get` (508-518), answering what is in the entry. -/
def bucketGet (key : Q) (keyHash : UInt64) : HHNode → Prog (HLabel K V) (Option (K × V))
  | .branch _ _ => .panic
  | .single e =>
    Prog.bind (hmatches o key keyHash e) fun b =>
    if b then Prog.bind (readEntry e.ptr) fun kv => .ret (some kv) else .ret none
  | .collision l => findEnt o key keyHash l.length l.head

/-- `Bucket::get_mut` (520-541), then `value_mut` and a write of `f old`. -/
def bucketGetMut (key : Q) (keyHash : UInt64) (f : V → V) : HHNode → Prog (HLabel K V) (Option V × HHNode)
  | .branch _ _ => .panic
  | .single e =>
    Prog.bind (hmatches o key keyHash e) fun b =>
    if b then Prog.bind (modEntry f e.ptr) fun x => .ret (some x.1, .single { e with ptr := x.2 }) else .ret (none, .single e)
  | .collision entries =>
    Prog.bind (removeFirst o key keyHash entries) fun x =>
    match x.1 with
    | none => .ret (none, .collision x.2)
    | some e =>
      Prog.bind (pushEnt x.2 e) fun entries =>
      Prog.bind (firstMut f entries) fun y => .ret (y.1, .collision y.2)

/-- `Bucket::insert` (558-588).  In the first case the old entry is dropped by the assignment; in the second case it is cloned, and
dropped by the assignment to `*self`; in the third case the entry that was removed is a temporary of the first statement. -/
def bucketInsert (entry : HEnt) : HHNode → Prog (HLabel K V) (Bool × HHNode)
  | .branch _ _ => .panic
  | .single existing =>
    Prog.bind (readEntry entry.ptr) fun kv =>
    Prog.bind (hmatches o.self kv.1 entry.hash existing) fun b =>
    if b then Prog.bind (drop existing.ptr) fun _ => .ret (false, .single entry)
    else
      Prog.bind (clone existing.ptr) fun _ =>
      Prog.bind (pushEnt HList.new existing) fun entries =>
      Prog.bind (pushEnt entries entry) fun entries =>
      Prog.bind (drop existing.ptr) fun _ => .ret (true, .collision entries)
  | .collision entries =>
    Prog.bind (readEntry entry.ptr) fun kv =>
    Prog.bind (removeFirst o.self kv.1 entry.hash entries) fun x =>
    Prog.bind (dropEnt x.1) fun _ =>
    Prog.bind (pushEnt x.2 entry) fun entries => .ret (!x.1.isSome, .collision entries)

/-- `Bucket::remove` (593-640) with the end of `Node::remove` (431-437), which puts an empty branch where there is no bucket left;
the assignments drop the old entry and the old list. -/
def bucketRemove (key : Q) (keyHash : UInt64) : HHNode → Prog (HLabel K V) (Bool × HHNode)
  | .branch _ _ => .panic
  | .single e =>
    Prog.bind (hmatches o key keyHash e) fun b =>
    if b then Prog.bind (drop e.ptr) fun _ => .ret (true, .branch 0 []) else .ret (false, .single e)
  | .collision entries =>
    Prog.bind (removeFirst o key keyHash entries) fun x =>
    Prog.bind (dropEnt x.1) fun _ =>
    match x.2.length with
    | 0 => .panic
    | 1 =>
      Prog.bind x.2.first fun v =>
      Prog.bind (lift (unwrap v)) fun v =>
      Prog.bind (readEwh v) fun e =>
      Prog.bind (clone e.ptr) fun _ =>
      Prog.bind x.2.dropList fun _ => .ret (x.1.isSome, .single e)
    | _ => .ret (x.1.isSome, .collision x.2)

/-! ### Nodes -/

variable (Ar : Arch)

/-- `index_from_hash(..).expect(..)` and the slot of the sparse array behind it. -/
def nodeSlot (keyHash : UInt64) (depth degree bm : Nat) : Res (Nat × Option Nat) := do
  let index ← unwrap (← indexFromHash Ar keyHash depth degree)
  let s ← SparseArray.slot Ar bm index
  pure (index, s)

/-- One level of `Node::get`. -/
def hgetStep (key : Q) (keyHash : UInt64) (degree : Nat) (sub : Addr → Nat → Prog (HLabel K V) (Option (K × V))) (p : Addr) (depth : Nat) :
    Prog (HLabel K V) (Option (K × V)) :=
  Prog.bind (readNode p) fun n =>
    match n with
    | .branch bm ps =>
      Prog.bind (lift (nodeSlot Ar keyHash depth degree bm)) fun x =>
        match x.2 with
        | none => .ret none
        | some i => Prog.bind (lift (vecIndex ps i)) fun q => sub q (depth + 1)
    | n => bucketGet o key keyHash n

/-- `Node::get` (250-272), answering what is in the entry. -/
def hget (key : Q) (keyHash : UInt64) (degree : Nat) : (fuel : Nat) → Addr → Nat → Prog (HLabel K V) (Option (K × V))
  | 0 => fun _ _ => .panic
  | fuel + 1 => hgetStep o Ar key keyHash degree (hget key keyHash degree fuel)

/-- One level of `Node::get_mut`. -/
def hgetMutStep (key : Q) (keyHash : UInt64) (degree : Nat) (f : V → V) (sub : HHNode → Nat → Prog (HLabel K V) (Option V × HHNode)) :
    HHNode → Nat → Prog (HLabel K V) (Option V × HHNode)
  | .branch bm ps, depth =>
    Prog.bind (lift (nodeSlot Ar keyHash depth degree bm)) fun x =>
      match x.2 with
      | none => .ret (none, .branch bm ps)
      | some i =>
        Prog.bind (lift (vecIndex ps i)) fun p =>
        Prog.bind (modNode p fun n => sub n (depth + 1)) fun y =>
        Prog.bind (lift (SparseArray.writeSlot ⟨bm, ps⟩ i y.2)) fun s => .ret (y.1, .branch s.bitmap s.array)
  | n, _ => bucketGetMut o key keyHash f n

/-- `Node::get_mut` (274-296), then `value_mut` and a write of `f old`. -/
def hgetMut (key : Q) (keyHash : UInt64) (degree : Nat) (f : V → V) :
    (fuel : Nat) → HHNode → Nat → Prog (HLabel K V) (Option V × HHNode)
  | 0 => fun _ _ => .panic
  | fuel + 1 => hgetMutStep o Ar key keyHash degree f (hgetMut key keyHash degree f fuel)

/-- One call of `Node::insert`. -/
def hinsertStep (degree : Nat) (sub : HEnt → HHNode → Nat → Prog (HLabel K V) (Bool × HHNode)) (entry : HEnt) :
    HHNode → Nat → Prog (HLabel K V) (Bool × HHNode)
  | .branch bm ps, depth =>
    Prog.bind (lift (nodeSlot Ar entry.hash depth degree bm)) fun x =>
      match x.2 with
      | some i =>
        Prog.bind (lift (vecIndex ps i)) fun p =>
        Prog.bind (modNode p fun n => sub entry n (depth + 1)) fun y =>
        Prog.bind (lift (SparseArray.writeSlot ⟨bm, ps⟩ i y.2)) fun s => .ret (y.1, .branch s.bitmap s.array)
      | none =>
        Prog.bind (new (.single entry.hash) [entry.ptr]) fun p =>
        Prog.bind (lift (SparseArray.set Ar ⟨bm, ps⟩ x.1 p)) fun s => .ret (true, .branch s.bitmap s.array)
  | n, depth =>
    Prog.bind (lift (indexFromHash Ar entry.hash depth degree)) fun x =>
    Prog.bind (readEntry entry.ptr) fun kv =>
    Prog.bind (bucketGet o.self kv.1 entry.hash n) fun y =>
    if !x.isNone then
      if y.isSome then bucketInsert o entry n
      else
        match n with
        | .single e =>
          Prog.bind (clone e.ptr) fun _ =>
          Prog.bind (drop e.ptr) fun _ =>
          Prog.bind (sub e (.branch 0 []) depth) fun z =>
          Prog.bind (sub entry z.2 depth) fun w => .ret (true, w.2)
        | _ => .panic
    else bucketInsert o entry n

/-- `Node::insert` (299-355). -/
def hinsert (degree : Nat) : (fuel : Nat) → HEnt → HHNode → Nat → Prog (HLabel K V) (Bool × HHNode)
  | 0 => fun _ _ _ => .panic
  | fuel + 1 => hinsertStep o Ar degree (hinsert degree fuel)

/-- `utils::replace(dest, src)` (/repo/src/utils/mod.rs:10-17): takes the content of `src`; what was in `dest` ends up in the cell of
`src`, whose pointer is dropped at the end. -/
def hreplace (dest : HHNode) (src : Addr) : Prog (HLabel K V) HHNode :=
  Prog.bind (makeMut src) fun x =>
    match HHNode.ofContent x.2 with
    | some n =>
      Prog.bind (close x.1 dest.label dest.ptrs) fun _ =>
      Prog.bind (drop x.1) fun _ => .ret n
    | none => .panic

/-- `Node::compress` (359-385) for a branch. -/
def hcompress (s : SparseArray Addr) : Prog (HLabel K V) HHNode :=
  match s.size Ar with
  | 1 =>
    Prog.bind (lift (unwrap s.first)) fun p =>
    Prog.bind (readNode p) fun n =>
      match n with
      | .single _ =>
        match s.pop with
        | (some q, s) => hreplace (.branch s.bitmap s.array) q
        | (none, s) => .ret (.branch s.bitmap s.array)
      | _ => .ret (.branch s.bitmap s.array)
  | _ => .ret (.branch s.bitmap s.array)

/-- `subtrees.remove(index)` (417; sparse_array_usize/mod.rs:77-82): the pointer taken out of the `Vec` is dropped. -/
def sparseRemove (s : SparseArray Addr) (index : Nat) : Prog (HLabel K V) (SparseArray Addr) :=
  Prog.bind (lift (SparseArray.mapIndex Ar s.bitmap index)) fun i =>
    match i with
    | none => .ret s
    | some i =>
      Prog.bind (lift (vecIndex s.array i)) fun p =>
      Prog.bind (lift (s.remove Ar index)) fun s =>
      Prog.bind (drop p) fun _ => .ret s

/-- One level of `Node::remove`. -/
def hremoveStep (key : Q) (keyHash : UInt64) (degree : Nat) (sub : HHNode → Nat → Prog (HLabel K V) (Bool × HHNode)) :
    HHNode → Nat → Prog (HLabel K V) (Bool × HHNode)
  | .branch bm ps, depth =>
    Prog.bind (lift (nodeSlot Ar keyHash depth degree bm)) fun x =>
      match x.2 with
      | none => .ret (false, .branch bm ps)
      | some i =>
        Prog.bind (lift (vecIndex ps i)) fun p =>
        Prog.bind (modNode p fun n =>
          Prog.bind (sub n (depth + 1)) fun y =>
          Prog.bind (lift (y.2.isEmpty Ar)) fun e => .ret ((e, y.1), y.2)) fun y =>
        Prog.bind (lift (SparseArray.writeSlot ⟨bm, ps⟩ i y.2)) fun s =>
          match y.1 with
          | (_, false) => .ret (false, .branch s.bitmap s.array)
          | (false, true) => Prog.bind (hcompress Ar s) fun n => .ret (true, n)
          | (true, true) =>
            Prog.bind (sparseRemove Ar s x.1) fun s =>
            Prog.bind (hcompress Ar s) fun n => .ret (true, n)
  | n, _ => bucketRemove o key keyHash n

/-- `Node::remove` (388-442). -/
def hremove (key : Q) (keyHash : UInt64) (degree : Nat) : (fuel : Nat) → HHNode → Nat → Prog (HLabel K V) (Bool × HHNode)
  | 0 => fun _ _ => .panic
  | fuel + 1 => hremoveStep o Ar key keyHash degree (hremove key keyHash degree fuel)

/-! ### Reading everything -/

/-- Reads an entry with its hash. -/
def viewEnt (e : HEnt) : Prog (HLabel K V) (HEntry K V) :=
  Prog.bind (readEntry e.ptr) fun kv => .ret ⟨kv.1, kv.2, e.hash⟩

/-- Reads the nodes of a list. -/
def viewLink : (fuel : Nat) → Option Addr → Prog (HLabel K V) (Link (HEntry K V))
  | _, none => .ret .none
  | 0, some _ => .panic
  | fuel + 1, some p =>
    Prog.bind (HList.readNode p) fun x =>
    Prog.bind (readEwh x.1) fun e =>
    Prog.bind (viewEnt e) fun e =>
    Prog.bind (viewLink fuel x.2) fun l => .ret (.some e l)

/-- Reads the last element of a list. -/
def viewLast : Option Addr → Prog (HLabel K V) (Option (HEntry K V))
  | none => .ret none
  | some p =>
    Prog.bind (readEwh p) fun e =>
    Prog.bind (viewEnt e) fun e => .ret (some e)

/-- One level of `hview`. -/
def hviewStep (sub : Addr → Prog (HLabel K V) (HNode K V)) (p : Addr) : Prog (HLabel K V) (HNode K V) :=
  Prog.bind (readNode p) fun n =>
    match n with
    | .branch bm ps => Prog.bind (forAll sub ps) fun arr => .ret (.branch bm arr)
    | .single e => Prog.bind (viewEnt e) fun e => .ret (.leaf (.single e))
    | .collision l =>
      Prog.bind (viewLink l.length l.head) fun hd =>
      Prog.bind (viewLast l.last) fun la => .ret (.leaf (.collision ⟨hd, la, l.length⟩))

/-- The tree as a value: all the reads an iterator can make. -/
def hview : (fuel : Nat) → Addr → Prog (HLabel K V) (HNode K V)
  | 0 => fun _ => .panic
  | fuel + 1 => hviewStep (hview fuel)

/-- Enough for all tries: every level but the last consumes a bit of the hash. -/
def trieFuel : Nat := 66

end model

/-! ### Maps -/

/-- `struct HashTrieMap` (117-125). -/
structure HHTMap (H : Type) where
  root : Addr
  size : Nat
  degree : Nat
  hasher : H
  deriving DecidableEq, Repr

/-- Operations of `HashTrieMap`: those of all maps, iteration (`n` calls of `next`), and `map.iter().filter(p).count()`. -/
inductive HTOp (K V Q : Type) where
  | base (op : MapOp K V Q)
  | iter (n : Nat)
  | count (p : K × V → Bool)

/-- Answers of operations. -/
inductive HTRet (K V : Type) where
  | base (r : MapRet K V)
  /-- `size_hint` of a new iterator, the answer of each call and the `size_hint` after it -/
  | calls (n : Nat) (rs : List (Option (K × V) × Nat))
  | count (n : Nat)
  deriving DecidableEq, Repr

/-- `map.iter().filter(p).count()`. -/
def countIf {H K V : Type} (p : K × V → Bool) (m : HTMap H K V) : Res Nat :=
  iterFold HTMap.iterNext (fun n kv => .ok (if p kv then n + 1 else n)) (m.size + 1) m.iter 0

end HT

/-- All operations on the value model. -/
def HTMap.stepAll {H K V Q : Type} (Ar : Arch) (o : HashKeys H K Q) (m : HTMap H K V) :
    HT.HTOp K V Q → Res (HT.HTRet K V × Effect (HTMap H K V))
  | .base op => do
    let x ← m.step Ar o op
    pure (.base x.1, x.2)
  | .iter n => do
    let rs ← fwCalls HTMap.iterNext HIter.sizeHint n m.iter
    pure (.calls m.iter.sizeHint rs, .keep)
  | .count p => do
    let n ← HT.countIf p m
    pure (.count n, .keep)

namespace HT
namespace HHTMap
variable {H K V Q : Type} (Ar : Arch) (o : HashKeys H K Q)

/-- `new_with_hasher_and_degree_and_ptr_kind` (748-761). -/
def newWithDegree (hasher : H) (degree : Nat) : Prog (HLabel K V) (HHTMap H) :=
  Prog.bind (lift (assertRt (isPow2 degree))) fun _ =>
  Prog.bind (lift (assertRt (decide (degree ≤ Ar.W % 256)))) fun _ =>
  Prog.bind (Heap.new (.branch 0) []) fun p => .ret ⟨p, 0, degree, hasher⟩

/-- `Clone for HashTrieMap` (934-941). -/
def clone (m : HHTMap H) : Prog (HLabel K V) (HHTMap H) := Prog.bind (Heap.clone m.root) fun _ => .ret m

/-- The drop glue of a map. -/
def dropMap (m : HHTMap H) : Prog (HLabel K V) Unit := drop m.root

/-- `HashTrieMap::get_key_value` (775-783) with the reads. -/
def getKeyValue (m : HHTMap H) (key : Q) : Prog (HLabel K V) (Option (K × V)) :=
  hget o Ar key (o.hashQ m.hasher key) m.degree trieFuel m.root 0

/-- `HashTrieMap::get` (764-772) with the reads. -/
def get (m : HHTMap H) (key : Q) : Prog (HLabel K V) (Option V) :=
  Prog.bind (m.getKeyValue Ar o key) fun x => .ret (x.map Prod.snd)

/-- `HashTrieMap::insert_mut` (794-801) with `EntryWithHash::new` (661-665). -/
def insertMut (m : HHTMap H) (key : K) (value : V) : Prog (HLabel K V) (HHTMap H) :=
  Prog.bind (Heap.new (.entry key value) []) fun e =>
  Prog.bind (modNode m.root fun n => hinsert o Ar m.degree HTMap.insertFuel ⟨o.hashK m.hasher key, e⟩ n 0) fun x =>
  .ret { m with root := x.2, size := if x.1 then m.size + 1 else m.size }

/-- `HashTrieMap::insert` (786-792). -/
def insert (m : HHTMap H) (key : K) (value : V) : Prog (HLabel K V) (HHTMap H) :=
  Prog.bind m.clone fun new_map => new_map.insertMut Ar o key value

/-- `HashTrieMap::remove_mut` (819-835). -/
def removeMut (m : HHTMap H) (key : Q) : Prog (HLabel K V) (Bool × HHTMap H) :=
  Prog.bind (modNode m.root fun n => hremove o Ar key (o.hashQ m.hasher key) m.degree trieFuel n 0) fun x =>
  if x.1 then Prog.bind (lift (csub m.size 1)) fun size => .ret (x.1, { m with root := x.2, size })
  else .ret (x.1, { m with root := x.2 })

/-- `HashTrieMap::remove` (804-817): if nothing was removed the changed clone is dropped. -/
def remove (m : HHTMap H) (key : Q) : Prog (HLabel K V) (HHTMap H) :=
  Prog.bind m.clone fun new_map =>
  Prog.bind (new_map.removeMut Ar o key) fun x =>
  if x.1 then .ret x.2
  else
    Prog.bind m.clone fun m' =>
    Prog.bind x.2.dropMap fun _ => .ret m'

/-- `HashTrieMap::get_mut` (900-911) followed by a write of `f old` through the reference. -/
def getMut (m : HHTMap H) (key : Q) (f : V → V) : Prog (HLabel K V) (Option V × HHTMap H) :=
  Prog.bind (modNode m.root fun n => hgetMut o Ar key (o.hashQ m.hasher key) m.degree f trieFuel n 0) fun x =>
  .ret (x.1, { m with root := x.2 })

/-- The map as a value: all the reads an iterator can make.  While an iterator exists the map is borrowed, so the order of the reads
does not matter. -/
def view (m : HHTMap H) : Prog (HLabel K V) (HTMap H K V) :=
  Prog.bind (hview trieFuel m.root) fun n => .ret ⟨n, m.size, m.degree, m.hasher⟩

end HHTMap

section
variable {H K V Q : Type} (Ar : Arch) (o : HashKeys H K Q)

/-- The operations all maps have (the same as in `HTMap.step`). -/
def htHStep (m : HHTMap H) : MapOp K V Q → Prog (HLabel K V) (MapRet K V × Effect (HHTMap H))
  | .insert k v => Prog.bind (m.insert Ar o k v) fun m' => .ret (.unit, .fresh m')
  | .insertMut k v => Prog.bind (m.insertMut Ar o k v) fun m' => .ret (.unit, .update m')
  | .remove q => Prog.bind (m.remove Ar o q) fun m' => .ret (.unit, .fresh m')
  | .removeMut q => Prog.bind (m.removeMut Ar o q) fun x => .ret (.bool x.1, .update x.2)
  | .getMut q f => Prog.bind (m.getMut Ar o q f) fun x => .ret (.optV x.1, .update x.2)
  | .clone => Prog.bind m.clone fun m' => .ret (.unit, .fresh m')
  | .get q => Prog.bind (m.get Ar o q) fun x => .ret (.optV x, .keep)
  | .getKeyValue q => Prog.bind (m.getKeyValue Ar o q) fun x => .ret (.optKV x, .keep)
  | .containsKey q => Prog.bind (m.get Ar o q) fun x => .ret (.bool x.isSome, .keep)
  | .index q =>
    Prog.bind (m.get Ar o q) fun x =>
      match x with
      | some v => .ret (.optV (some v), .keep)
      | none => .ret (.panicked, .keep)
  | .size => .ret (.nat m.size, .keep)
  | .isEmpty => .ret (.bool (m.size == 0), .keep)

/-- All operations (the same as in `HTMap.stepAll`). -/
def htHStepAll (m : HHTMap H) : HTOp K V Q → Prog (HLabel K V) (HTRet K V × Effect (HHTMap H))
  | .base op => Prog.bind (htHStep Ar o m op) fun x => .ret (.base x.1, x.2)
  | .iter n =>
    Prog.bind m.view fun v =>
    Prog.bind (lift (fwCalls HTMap.iterNext HIter.sizeHint n v.iter)) fun rs => .ret (.calls v.iter.sizeHint rs, .keep)
  | .count p =>
    Prog.bind m.view fun v =>
    Prog.bind (lift (countIf p v)) fun n => .ret (.count n, .keep)

/-- `HashTrieMap` for clients, made with `new_with_hasher_and_degree_and_ptr_kind(hasher, degree)`. -/
def htImpl (hasher : H) (degree : Nat) : Impl (HLabel K V) (HHTMap H) (HTOp K V Q) (HTRet K V) where
  ptrs m := [m.root]
  new := HHTMap.newWithDegree Ar hasher degree
  step := htHStepAll Ar o
  drop m := m.dropMap

end
end HT
end Heap
end Rpds
