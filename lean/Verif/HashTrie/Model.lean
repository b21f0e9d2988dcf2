import Verif.Spec.Map
import Verif.HashTrie.Sparse
import Verif.List.Model
/-
Model of `rpds::HashTrieMap` (/repo/src/map/hash_trie_map/mod.rs).

`SharedPointer`s are modelled by the values they point to (sharing is in `Verif/Heap`).  Hash values are `u64`s produced by an
arbitrary function of the hasher and the key.
-/
set_option autoImplicit false
namespace Rpds

/-- The operations the map uses on keys: `K: Eq + Hash + Borrow<Q>`, `Q: Eq + Hash`, and `BuildHasher::hash_one` of a hasher
`H` (hash_trie_map/mod.rs:236-238 `node_utils::hash`). -/
structure HashKeys (H K Q : Type) where
  /-- `Borrow<Q> for K` -/
  borrow : K → Q
  hashK : H → K → UInt64
  hashQ : H → Q → UInt64
  eqK : K → K → Bool
  eqQ : Q → Q → Bool

namespace HashKeys
variable {H K Q : Type}

/-- Looking up by `K` itself (`K: Borrow<K>`). -/
def self (o : HashKeys H K Q) : HashKeys H K K :=
  { borrow := id, hashK := o.hashK, hashQ := o.hashK, eqK := o.eqK, eqQ := o.eqK }

/-- `k.borrow() == q`. -/
def eqKQ (o : HashKeys H K Q) (k : K) (q : Q) : Bool := o.eqQ (o.borrow k) q

end HashKeys

/-- `u8::is_power_of_two`. -/
def isPow2 (d : Nat) : Bool := d != 0 && d &&& (d - 1) == 0

/-- `u8::trailing_zeros`. -/
def trailingZeros8 (d : Nat) : Nat := ((List.range 8).takeWhile fun i => !d.testBit i).length

/-- `index_from_hash` (hash_trie_map/mod.rs:220-234).  The `u32` product `depth as u32 * trailing_zeros` wraps or panics as in
the build mode; `degree as u64 - 1` is checked. -/
def indexFromHash (A : Arch) (hash : UInt64) (depth degree : Nat) : Res (Option Nat) := do
  A.debugAssert (isPow2 degree)
  let shift ← { A with W := 32 : Arch }.umul (depth % 2 ^ 32) (trailingZeros8 degree)
  if shift < 64 then do
    let mask ← csub degree 1
    pure (some ((hash.toNat >>> shift) &&& mask))
  else pure none

/-- `EntryWithHash` with its `Entry` (hash_trie_map/mod.rs:202-208, map/entry.rs:1-5). -/
structure HEntry (K V : Type) where
  key : K
  value : V
  keyHash : UInt64
  deriving DecidableEq, Repr

/-- `enum Bucket` (hash_trie_map/mod.rs:193-199). -/
inductive Bucket (K V : Type) where
  | single (e : HEntry K V)
  | collision (l : RList (HEntry K V))
  deriving DecidableEq, Repr

/-- `enum Node` (hash_trie_map/mod.rs:184-190); the `SparseArrayUsize` of a branch is given by its two fields. -/
inductive HNode (K V : Type) where
  | branch (bitmap : Nat) (array : List (HNode K V))
  | leaf (b : Bucket K V)

namespace HEntry
variable {H K V Q : Type}

/-- `EntryWithHash::new` (hash_trie_map/mod.rs:661-665). -/
def new (o : HashKeys H K Q) (h : H) (key : K) (value : V) : HEntry K V := { key, value, keyHash := o.hashK h key }

/-- `EntryWithHash::matches` (hash_trie_map/mod.rs:676-682). -/
def «matches» (o : HashKeys H K Q) (e : HEntry K V) (key : Q) (keyHash : UInt64) : Bool :=
  e.keyHash == keyHash && o.eqKQ e.key key

/-- Writing through `EntryWithHash::value_mut` (hash_trie_map/mod.rs:691-693). -/
def valueMut (e : HEntry K V) (f : V → V) : HEntry K V := { e with value := f e.value }

/-- `Clone for EntryWithHash` (hash_trie_map/mod.rs:701-703). -/
def clone (e : HEntry K V) : HEntry K V := { key := e.key, value := e.value, keyHash := e.keyHash }

end HEntry

/-- First loop of `list_remove_first` (hash_trie_map/mod.rs:480-491).  Fuel: the length of the list. -/
def listRemoveLoop {T : Type} (p : T → Bool) : Nat → RList T → List T → Res (Option T × RList T × List T)
  | 0, _, _ => .error .diverge
  | fuel + 1, remaining, before_needle =>
    if !remaining.isEmpty then do
      let e ← unwrap remaining.first
      let (_, remaining) ← remaining.dropFirstMut
      if p e then pure (some e, remaining, before_needle)
      else listRemoveLoop p fuel remaining (before_needle ++ [e])
    else pure (none, remaining, before_needle)

/-- `bucket_utils::list_remove_first` (hash_trie_map/mod.rs:472-500): the removed element and the list afterwards.  The second
loop pops the `Vec` from its end and pushes each element at the front. -/
def listRemoveFirst {T : Type} (p : T → Bool) (list : RList T) : Res (Option T × RList T) := do
  let (removed, remaining, before_needle) ← listRemoveLoop p (list.len + 1) list []
  pure (removed, before_needle.reverse.foldl (fun l e => l.pushFrontMut e) remaining)

/-- `iter.find(p)`, std `core::iter::Iterator::find`. -/
def iterFind {σ α : Type} (next : σ → Res (Option α × σ)) (p : α → Bool) : Nat → σ → Res (Option α)
  | 0, _ => .error .diverge
  | fuel + 1, s => do
    let (x, s') ← next s
    match x with
    | none => pure none
    | some a => if p a then pure (some a) else iterFind next p fuel s'

namespace Bucket
variable {H K V Q : Type}

/-- `Bucket::get` (hash_trie_map/mod.rs:508-518). -/
def get (o : HashKeys H K Q) (key : Q) (keyHash : UInt64) : Bucket K V → Res (Option (HEntry K V))
  | .single e => pure (if e.matches o key keyHash then some e else none)
  | .collision entries => iterFind ListIter.step (fun e => e.matches o key keyHash) (entries.len + 1) entries.iter

/-- `Bucket::contains_key` (hash_trie_map/mod.rs:544-550). -/
def containsKey (o : HashKeys H K Q) (b : Bucket K V) (key : Q) (keyHash : UInt64) : Res Bool := do
  let r ← b.get o key keyHash
  pure r.isSome

/-- `Bucket::get_mut` (hash_trie_map/mod.rs:520-541) followed by writing `f` through the reference: the entry found (before the
write) and the bucket afterwards. -/
def getMut (o : HashKeys H K Q) (key : Q) (keyHash : UInt64) (f : HEntry K V → HEntry K V) :
    Bucket K V → Res (Option (HEntry K V) × Bucket K V)
  | .single e => pure (if e.matches o key keyHash then (some e, .single (f e)) else (none, .single e))
  | .collision entries => do
    let (removed, entries) ← listRemoveFirst (fun e => e.matches o key keyHash) entries
    match removed with
    | none => pure (none, .collision entries)
    | some e =>
      let entries := entries.pushFrontMut e
      match entries.firstMutSet f with
      | none => pure (none, .collision entries)
      | some entries' => pure (entries.first, .collision entries')

/-- `Bucket::insert` (hash_trie_map/mod.rs:558-588). -/
def insert (o : HashKeys H K Q) (entry : HEntry K V) : Bucket K V → Res (Bool × Bucket K V)
  | .single existing =>
    if existing.matches o.self entry.key entry.keyHash then pure (false, .single entry)
    else
      let entries := (RList.new.pushFrontMut existing.clone).pushFrontMut entry
      pure (true, .collision entries)
  | .collision entries => do
    let (removed, entries) ← listRemoveFirst (fun e => e.matches o.self entry.key entry.keyHash) entries
    let key_existed := removed.isSome
    let entries := entries.pushFrontMut entry
    pure (!key_existed, .collision entries)

/-- `Bucket::remove` (hash_trie_map/mod.rs:593-640): whether the key was present, and what is left of the bucket. -/
def remove (o : HashKeys H K Q) (key : Q) (keyHash : UInt64) : Bucket K V → Res (Bool × Option (Bucket K V))
  | .single e => pure (if e.matches o key keyHash then (true, none) else (false, some (.single e)))
  | .collision entries => do
    let (removed, entries) ← listRemoveFirst (fun e => e.matches o key keyHash) entries
    match entries.len with
    | 0 => .error .unreachable
    | 1 => do
      let e ← unwrap entries.first
      pure (removed.isSome, some (.single e.clone))
    | _ => pure (removed.isSome, some (.collision entries))

/-- `Clone for Bucket` (hash_trie_map/mod.rs:648-653). -/
def clone : Bucket K V → Bucket K V
  | .single e => .single e.clone
  | .collision l => .collision l.clone

end Bucket

namespace HNode
variable {H K V Q : Type} (A : Arch) (o : HashKeys H K Q)

/-- `Node::new_empty_branch` (hash_trie_map/mod.rs:246-248). -/
def newEmptyBranch : HNode K V := .branch (SparseArray.new (T := HNode K V)).bitmap SparseArray.new.array

mutual
/-- `Node::get` (hash_trie_map/mod.rs:250-272). -/
def get (key : Q) (keyHash : UInt64) (degree : Nat) : HNode K V → (depth : Nat) → Res (Option (HEntry K V))
  | .branch bm arr, depth => do
    let index ← unwrap (← indexFromHash A keyHash depth degree)
    match ← SparseArray.slot A bm index with
    | none => pure none
    | some i => getAt key keyHash degree arr i (depth + 1)
  | .leaf b, _ => b.get o key keyHash
/-- `arr[i].get(…)`: the recursive call of `Node::get`. -/
def getAt (key : Q) (keyHash : UInt64) (degree : Nat) : List (HNode K V) → (i depth : Nat) → Res (Option (HEntry K V))
  | [], _, _ => .error .indexOutOfBounds
  | c :: _, 0, depth => get key keyHash degree c depth
  | _ :: cs, i + 1, depth => getAt key keyHash degree cs i depth
end

mutual
/-- `Node::get_mut` (hash_trie_map/mod.rs:274-296) followed by writing `f` through the reference. -/
def getMut (key : Q) (keyHash : UInt64) (degree : Nat) (f : HEntry K V → HEntry K V) :
    HNode K V → (depth : Nat) → Res (Option (HEntry K V) × HNode K V)
  | .branch bm arr, depth => do
    let index ← unwrap (← indexFromHash A keyHash depth degree)
    match ← SparseArray.slot A bm index with
    | none => pure (none, .branch bm arr)
    | some i => do
      let (r, subtree) ← getMutAt key keyHash degree f arr i (depth + 1)
      let s ← SparseArray.writeSlot ⟨bm, arr⟩ i subtree
      pure (r, .branch s.bitmap s.array)
  | .leaf b, _ => do
    let (r, b) ← b.getMut o key keyHash f
    pure (r, .leaf b)
/-- The recursive call of `Node::get_mut` on `arr[i]`. -/
def getMutAt (key : Q) (keyHash : UInt64) (degree : Nat) (f : HEntry K V → HEntry K V) :
    List (HNode K V) → (i depth : Nat) → Res (Option (HEntry K V) × HNode K V)
  | [], _, _ => .error .indexOutOfBounds
  | c :: _, 0, depth => getMut key keyHash degree f c depth
  | _ :: cs, i + 1, depth => getMutAt key keyHash degree f cs i depth
end

/-- `Node::insert` (hash_trie_map/mod.rs:299-355): whether the key is new, and the node afterwards.  The recursion is not
structural (a leaf is replaced by a branch and inserted into again), hence the fuel. -/
def insert (degree : Nat) : (fuel : Nat) → HEntry K V → HNode K V → (depth : Nat) → Res (Bool × HNode K V)
  | 0, _, _, _ => .error .diverge
  | fuel + 1, entry, .branch bm arr, depth => do
    let index ← unwrap (← indexFromHash A entry.keyHash depth degree)
    match ← SparseArray.slot A bm index with
    | some i => do
      let subtree ← vecIndex arr i
      let (isNew, subtree) ← insert degree fuel entry subtree (depth + 1)
      let s ← SparseArray.writeSlot ⟨bm, arr⟩ i subtree
      pure (isNew, .branch s.bitmap s.array)
    | none => do
      let s ← SparseArray.set A ⟨bm, arr⟩ index (.leaf (.single entry))
      pure (true, .branch s.bitmap s.array)
  | fuel + 1, entry, .leaf b, depth => do
    let maximum_depth := (← indexFromHash A entry.keyHash depth degree).isNone
    let bucket_contains_key ← b.containsKey o.self entry.key entry.keyHash
    if !maximum_depth then
      if bucket_contains_key then do
        let (isNew, b) ← b.insert o entry
        pure (isNew, .leaf b)
      else
        match b with
        | .collision _ => .error .unreachable
        | .single e => do
          let old_entry := e.clone
          let (_, n) ← insert degree fuel old_entry newEmptyBranch depth
          let (_, n) ← insert degree fuel entry n depth
          pure (true, n)
    else do
      let (isNew, b) ← b.insert o entry
      pure (isNew, .leaf b)

/-- `Node::compress` (hash_trie_map/mod.rs:359-385) with `utils::replace` (utils/mod.rs:10-17). -/
def compress : HNode K V → Res (HNode K V)
  | .branch bm arr =>
    let subtrees : SparseArray (HNode K V) := ⟨bm, arr⟩
    match subtrees.size A with
    | 1 => do
      let subtree ← unwrap subtrees.first
      match subtree with
      | .leaf (.single _) =>
        match subtrees.pop with
        | (some node, _) => pure node
        | (none, s) => pure (.branch s.bitmap s.array)
      | _ => pure (.branch bm arr)
    | _ => pure (.branch bm arr)
  | .leaf b => pure (.leaf b)

/-- `Node::is_empty` (hash_trie_map/mod.rs:444-453). -/
def isEmpty : HNode K V → Res Bool
  | .branch bm arr => pure ((⟨bm, arr⟩ : SparseArray (HNode K V)).size A == 0)
  | .leaf (.single _) => pure false
  | .leaf (.collision entries) => do
    A.debugAssert (decide (entries.len ≥ 2))
    pure false

mutual
/-- `Node::remove` (hash_trie_map/mod.rs:388-442). -/
def remove (key : Q) (keyHash : UInt64) (degree : Nat) : HNode K V → (depth : Nat) → Res (Bool × HNode K V)
  | .branch bm arr, depth => do
    let index ← unwrap (← indexFromHash A keyHash depth degree)
    match ← SparseArray.slot A bm index with
    | none => pure (false, .branch bm arr)
    | some i => do
      let (removed, subtree) ← removeAt key keyHash degree arr i (depth + 1)
      let subtrees ← SparseArray.writeSlot ⟨bm, arr⟩ i subtree
      match ← subtree.isEmpty A, removed with
      | _, false => pure (removed, .branch subtrees.bitmap subtrees.array)
      | false, true => do
        let n ← compress A (.branch subtrees.bitmap subtrees.array)
        pure (removed, n)
      | true, true => do
        let subtrees ← subtrees.remove A index
        let n ← compress A (.branch subtrees.bitmap subtrees.array)
        pure (removed, n)
  | .leaf b, _ => do
    match ← b.remove o key keyHash with
    | (removed, none) => pure (removed, newEmptyBranch)
    | (removed, some b) => pure (removed, .leaf b)
/-- The recursive call of `Node::remove` on `arr[i]`. -/
def removeAt (key : Q) (keyHash : UInt64) (degree : Nat) : List (HNode K V) → (i depth : Nat) → Res (Bool × HNode K V)
  | [], _, _ => .error .indexOutOfBounds
  | c :: _, 0, depth => remove key keyHash degree c depth
  | _ :: cs, i + 1, depth => removeAt key keyHash degree cs i depth
end

/-- `Clone for Node` (hash_trie_map/mod.rs:456-467): one level, the subtrees are shared. -/
def clone : HNode K V → HNode K V
  | .branch bm arr => .branch (SparseArray.clone ⟨bm, arr⟩).bitmap (SparseArray.clone ⟨bm, arr⟩).array
  | .leaf b => .leaf b.clone

end HNode

/-- `struct HashTrieMap` (hash_trie_map/mod.rs:117-125). -/
structure HTMap (H K V : Type) where
  root : HNode K V
  size : Nat
  degree : Nat
  hasher : H

/-- `enum IterStackElement` (hash_trie_map/mod.rs:1051-1058). -/
inductive HStackElem (K V : Type) where
  | branch (rest : List (HNode K V))
  | leafCollision (it : ListIter (HEntry K V))
  | leafSingle (e : Option (HEntry K V))

/-- `struct IterPtr` (hash_trie_map/mod.rs:1042-1048).  The top of the stack is the head of the list. -/
structure HIter (K V : Type) where
  stack : List (HStackElem K V)
  size : Nat

namespace HStackElem
variable {K V : Type}

/-- `IterStackElement::new` (hash_trie_map/mod.rs:1066-1076). -/
def new : HNode K V → HStackElem K V
  | .branch _ arr => .branch arr
  | .leaf (.collision entries) => .leafCollision entries.iter
  | .leaf (.single e) => .leafSingle (some e)

/-- `IterStackElement::next` (hash_trie_map/mod.rs:1081-1092): an entry, or an element to push, or nothing; and the element
afterwards. -/
def next : HStackElem K V → Res (Option (HEntry K V ⊕ HStackElem K V) × HStackElem K V)
  | .branch [] => pure (none, .branch [])
  | .branch (n :: rest) =>
    match n with
    | .branch bm arr => pure (some (.inr (new (.branch bm arr))), .branch rest)
    | .leaf (.collision l) => pure (some (.inr (new (.leaf (.collision l)))), .branch rest)
    | .leaf (.single e) => pure (some (.inl e), .branch rest)
  | .leafCollision it => do
    let (x, it) ← it.step
    pure (x.map .inl, .leafCollision it)
  | .leafSingle e => pure (e.map .inl, .leafSingle none)

end HStackElem

mutual
/-- Number of iterations of the loop of `IterPtr::next` a node can cause (fuel only). -/
def HNode.weight {K V : Type} : HNode K V → Nat
  | .branch _ arr => HNode.weights arr + 2
  | .leaf (.single _) => 3
  | .leaf (.collision l) => l.length + 2
/-- Sum of `HNode.weight`. -/
def HNode.weights {K V : Type} : List (HNode K V) → Nat
  | [] => 0
  | n :: ns => n.weight + HNode.weights ns
end

/-- Fuel for the loop of `IterPtr::next`. -/
def HStackElem.weight {K V : Type} : HStackElem K V → Nat
  | .branch rest => HNode.weights rest + 1
  | .leafCollision it => it.length + 1
  | .leafSingle _ => 2

namespace HIter
variable {H K V : Type}

/-- `IterPtr::new` (hash_trie_map/mod.rs:1100-1108). -/
def new (m : HTMap H K V) : HIter K V :=
  { stack := if m.size > 0 then [HStackElem.new m.root] else [], size := m.size }

/-- The `while let` loop of `IterPtr::next` (hash_trie_map/mod.rs:1119-1132). -/
def loop : (fuel : Nat) → HIter K V → Res (Option (HEntry K V) × HIter K V)
  | 0, _ => .error .diverge
  | fuel + 1, it =>
    match it.stack with
    | [] => pure (none, it)
    | top :: below => do
      let (r, top) ← top.next
      match r with
      | some (.inl e) => do
        let size ← csub it.size 1
        pure (some e, { stack := top :: below, size })
      | some (.inr elem) => loop fuel { it with stack := elem :: top :: below }
      | none => loop fuel { it with stack := below }

/-- `Iterator::next for IterPtr` (hash_trie_map/mod.rs:1118-1134). -/
def next (it : HIter K V) : Res (Option (HEntry K V) × HIter K V) :=
  loop ((it.stack.map HStackElem.weight).sum + 1) it

/-- `size_hint` (hash_trie_map/mod.rs:1137-1139). -/
def sizeHint (it : HIter K V) : Nat := it.size

/-- `Iter`, `IterKeys`, `IterValues`: `iter::Map` over the pointer iterator (hash_trie_map/mod.rs:25-28, 875-890). -/
def mapNext {β : Type} (f : HEntry K V → β) (it : HIter K V) : Res (Option β × HIter K V) := do
  let (x, it) ← it.next
  pure (x.map f, it)

end HIter

namespace HTMap
variable {H K V Q : Type} (A : Arch) (o : HashKeys H K Q)

/-- Enough fuel for `Node::insert` with any valid degree: the tree is at most 64 levels deep, with at most two calls per level
(`HNode.insert_fuel_mono` shows that more fuel does not change the result). -/
def insertFuel : Nat := 130

/-- `new_with_hasher_and_degree_and_ptr_kind` (hash_trie_map/mod.rs:748-761), also behind `new_with_degree` and
`new_sync_with_degree` (716-718, 731-733).  `DEFAULT_DEGREE` is `usize::BITS as u8` (31). -/
def newWithDegree (hasher : H) (degree : Nat) : Res (HTMap H K V) := do
  assertRt (isPow2 degree)
  assertRt (decide (degree ≤ A.W % 256))
  pure { root := HNode.newEmptyBranch, size := 0, degree, hasher }

/-- `new_with_hasher_and_ptr_kind` (hash_trie_map/mod.rs:743-745), `new`, `new_sync`, `default` (711-713, 726-728, 950-952). -/
def new (hasher : H) : Res (HTMap H K V) := newWithDegree A hasher (A.W % 256)

/-- `Clone for HashTrieMap` (hash_trie_map/mod.rs:934-941). -/
def clone (m : HTMap H K V) : HTMap H K V := { root := m.root, size := m.size, degree := m.degree, hasher := m.hasher }

/-- `self.root.get(key, hash(key), 0, self.degree)`. -/
def lookup (m : HTMap H K V) (key : Q) : Res (Option (HEntry K V)) :=
  m.root.get A o key (o.hashQ m.hasher key) m.degree 0

/-- `HashTrieMap::get` (hash_trie_map/mod.rs:764-772). -/
def get (m : HTMap H K V) (key : Q) : Res (Option V) := do
  let r ← m.lookup A o key
  pure (r.map fun e => e.value)

/-- `HashTrieMap::get_key_value` (hash_trie_map/mod.rs:775-783). -/
def getKeyValue (m : HTMap H K V) (key : Q) : Res (Option (K × V)) := do
  let r ← m.lookup A o key
  pure (r.map fun e => (e.key, e.value))

/-- `HashTrieMap::insert_mut` (hash_trie_map/mod.rs:794-801). -/
def insertMut (m : HTMap H K V) (key : K) (value : V) : Res (HTMap H K V) := do
  let entry := HEntry.new o m.hasher key value
  let (is_new_key, root) ← m.root.clone.insert A o m.degree insertFuel entry 0
  pure { m with root, size := if is_new_key then m.size + 1 else m.size }

/-- `HashTrieMap::insert` (hash_trie_map/mod.rs:786-792). -/
def insert (m : HTMap H K V) (key : K) (value : V) : Res (HTMap H K V) := m.clone.insertMut A o key value

/-- `HashTrieMap::remove_mut` (hash_trie_map/mod.rs:819-835). -/
def removeMut (m : HTMap H K V) (key : Q) : Res (Bool × HTMap H K V) := do
  let (removed, root) ← m.root.clone.remove A o key (o.hashQ m.hasher key) m.degree 0
  if removed then do
    let size ← csub m.size 1
    pure (removed, { m with root, size })
  else pure (removed, { m with root })

/-- `HashTrieMap::remove` (hash_trie_map/mod.rs:804-817). -/
def remove (m : HTMap H K V) (key : Q) : Res (HTMap H K V) := do
  let (removed, new_map) ← m.clone.removeMut A o key
  pure (if removed then new_map else m.clone)

/-- `HashTrieMap::contains_key` (hash_trie_map/mod.rs:838-844). -/
def containsKey (m : HTMap H K V) (key : Q) : Res Bool := do
  let r ← m.get A o key
  pure r.isSome

/-- `HashTrieMap::size` (hash_trie_map/mod.rs:864-866). -/
def getSize (m : HTMap H K V) : Nat := m.size

/-- `HashTrieMap::is_empty` (hash_trie_map/mod.rs:870-872). -/
def isEmpty (m : HTMap H K V) : Bool := m.getSize == 0

/-- `HashTrieMap::get_mut` (hash_trie_map/mod.rs:900-911) followed by writing `f` through the reference: the value found and the
map afterwards. -/
def getMut (m : HTMap H K V) (key : Q) (f : V → V) : Res (Option V × HTMap H K V) := do
  let (r, root) ← m.root.clone.getMut A o key (o.hashQ m.hasher key) m.degree (fun e => e.valueMut f) 0
  pure (r.map fun e => e.value, { m with root })

/-- `Index for HashTrieMap` (hash_trie_map/mod.rs:923-925). -/
def index (m : HTMap H K V) (key : Q) : Res V := do
  let r ← m.get A o key
  unwrap r

/-- `HashTrieMap::iter_ptr` (hash_trie_map/mod.rs:880-882). -/
def iter (m : HTMap H K V) : HIter K V := HIter.new m

/-- `next` of `HashTrieMap::iter` (hash_trie_map/mod.rs:875-877). -/
def iterNext : HIter K V → Res (Option (K × V) × HIter K V) := HIter.mapNext fun e => (e.key, e.value)

/-- `next` of `HashTrieMap::keys` (hash_trie_map/mod.rs:884-886). -/
def keysNext : HIter K V → Res (Option K × HIter K V) := HIter.mapNext fun e => e.key

/-- `next` of `HashTrieMap::values` (hash_trie_map/mod.rs:888-890). -/
def valuesNext : HIter K V → Res (Option V × HIter K V) := HIter.mapNext fun e => e.value

/-- `PartialEq for HashTrieMap` (hash_trie_map/mod.rs:963-969).  `samePtr` is the answer of `ptr_eq`; values have no addresses
in this model. -/
def eq (eqV : V → V → Bool) (samePtr : Bool) (a b : HTMap H K V) : Res Bool :=
  if samePtr then pure true
  else if a.getSize == b.getSize then
    iterAll iterNext (fun kv => do
      let r ← b.get A o.self kv.1
      pure (match r with | none => false | some v => eqV kv.2 v)) (a.size + 1) a.iter
  else pure false

/-- `Display for HashTrieMap` (hash_trie_map/mod.rs:987-1003). -/
def display (fmtK : K → String) (fmtV : V → String) (m : HTMap H K V) : Res String := do
  let out ← iterDisplay iterNext (fun kv => fmtK kv.1 ++ ": " ++ fmtV kv.2) (m.size + 1) m.iter true "{"
  pure (out ++ "}")

/-- The loop of `from_iter` (hash_trie_map/mod.rs:1029-1031), of `ht_map!` (46-57, 73-84) and of programs that insert one pair
after the other. -/
def insertAll (m : HTMap H K V) : List (K × V) → Res (HTMap H K V)
  | [] => pure m
  | (k, v) :: kvs => do
    let m ← m.insertMut A o k v
    m.insertAll kvs

/-- `FromIterator for HashTrieMap` (hash_trie_map/mod.rs:1026-1034) and `ht_map!`, `ht_map_sync!` (46-84). -/
def fromIter (hasher : H) (kvs : List (K × V)) : Res (HTMap H K V) := do
  let m ← new A hasher
  m.insertAll A o kvs

/-- `Serialize for HashTrieMap` (hash_trie_map/mod.rs:1159-1161): `collect_map` emits the pairs of the iterator. -/
def serialize (m : HTMap H K V) : Res (List (K × V)) := drain iterNext (m.size + 1) m.iter

/-- The loop of `visit_map` (hash_trie_map/mod.rs:1210-1212).  The input is the sequence of results of `next_entry()` up to the
end of the map; the outer `Except` is the deserialization error. -/
def visitLoop {E : Type} (m : HTMap H K V) : List (Except E (K × V)) → Res (Except E (HTMap H K V))
  | [] => pure (.ok m)
  | .error e :: _ => pure (.error e)
  | .ok (k, v) :: input => do
    let m ← m.insertMut A o k v
    m.visitLoop input

/-- `Deserialize for HashTrieMap` (hash_trie_map/mod.rs:1164-1216). -/
def deserialize {E : Type} (hasher : H) (input : List (Except E (K × V))) : Res (Except E (HTMap H K V)) := do
  let m ← new A hasher
  m.visitLoop A o input

/-- Runs one operation on one version.  The documented panic of `map[key]` (and only that panic) becomes the answer `panicked`. -/
def step (m : HTMap H K V) : MapOp K V Q → Res (MapRet K V × Effect (HTMap H K V))
  | .insert k v => do
    let m' ← m.insert A o k v
    pure (.unit, .fresh m')
  | .insertMut k v => do
    let m' ← m.insertMut A o k v
    pure (.unit, .update m')
  | .remove q => do
    let m' ← m.remove A o q
    pure (.unit, .fresh m')
  | .removeMut q => do
    let (b, m') ← m.removeMut A o q
    pure (.bool b, .update m')
  | .getMut q f => do
    let (r, m') ← m.getMut A o q f
    pure (.optV r, .update m')
  | .clone => pure (.unit, .fresh m.clone)
  | .get q => do
    let r ← m.get A o q
    pure (.optV r, .keep)
  | .getKeyValue q => do
    let r ← m.getKeyValue A o q
    pure (.optKV r, .keep)
  | .containsKey q => do
    let b ← m.containsKey A o q
    pure (.bool b, .keep)
  | .index q =>
    match m.index A o q with
    | .ok v => .ok (.optV (some v), .keep)
    | .error .unwrapNone => .ok (.panicked, .keep)
    | .error e => .error e
  | .size => pure (.nat m.getSize, .keep)
  | .isEmpty => pure (.bool m.isEmpty, .keep)

end HTMap
end Rpds
