import Verif.HashTrie.Unlawful
import Verif.HashTrie.Order
/-
Hash trie maps whose keys' `hash`, `eq` (and `Clone`) may panic: user code as a stateful function.

The functions of `Verif/HashTrie/Model.lean` again, with every call of user code written as such.  The result is `none` if user code
panicked; the node is then what the code leaves behind when the panic unwinds (line numbers of /repo/src/map/hash_trie_map/mod.rs).
-/
set_option autoImplicit false
namespace Rpds
open Spec

/-- User code with a state of its own: `Hash` and `Eq` of keys and borrowed keys (`eqK`, `eqQ`: stored key, key asked for), and the
`Clone`s of key and value in `make_mut` of an entry (when it is shared).  `none`: it panics. -/
structure HTUser (S H K V Q : Type) where
  hashK : S → H → K → Option UInt64 × S
  hashQ : S → H → Q → Option UInt64 × S
  eqK : S → K → K → Option Bool × S
  eqQ : S → K → Q → Option Bool × S
  clone : S → K × V → Option Unit × S
  drop : S → K × V → Option Unit × S := fun s _ => (some (), s)

namespace HTUser
variable {S H K V Q : Type}

/-- Functions that keep no state and never panic. -/
def pure (o : HashKeys H K Q) : HTUser S H K V Q where
  hashK s h k := (some (o.hashK h k), s)
  hashQ s h q := (some (o.hashQ h q), s)
  eqK s a b := (some (o.eqK a b), s)
  eqQ s k q := (some (o.eqKQ k q), s)
  clone s _ := (some (), s)

/-- When `eq` answers at all, it answers as the functions of `o`. -/
structure Obeys (U : HTUser S H K V Q) (o : HashKeys H K Q) : Prop where
  eqK : ∀ s a b, (U.eqK s a b).1 = none ∨ (U.eqK s a b).1 = some (o.eqK a b)
  eqQ : ∀ s k q, (U.eqQ s k q).1 = none ∨ (U.eqQ s k q).1 = some (o.eqKQ k q)

theorem pure_obeys (o : HashKeys H K Q) : (pure o : HTUser S H K V Q).Obeys o := ⟨fun _ _ _ => .inr rfl, fun _ _ _ => .inr rfl⟩

end HTUser

/-- `EntryWithHash::matches` (676-682): `eq` is called only if the hashes are equal. -/
def HEntry.matchesU {S K V Q : Type} (eq : S → K → Q → Option Bool × S) (key : Q) (keyHash : UInt64) (e : HEntry K V) (s : S) : Option Bool × S :=
  if e.keyHash == keyHash then eq s e.key key else (some false, s)

/-- First loop of `list_remove_first` (480-491).  The element is dropped from the list before the predicate is called; if that panics, it
and the elements before it are gone. -/
def listRemoveLoopU {S T : Type} (p : T → S → Option Bool × S) : Nat → RList T → List T → S → Res (Option (Option T × List T) × RList T × S)
  | 0, _, _, _ => .error .diverge
  | fuel + 1, remaining, before_needle, s =>
    if !remaining.isEmpty then do
      let e ← unwrap remaining.first
      let (_, remaining) ← remaining.dropFirstMut
      match p e s with
      | (none, s) => .ok (none, remaining, s)
      | (some true, s) => .ok (some (some e, before_needle), remaining, s)
      | (some false, s) => listRemoveLoopU p fuel remaining (before_needle ++ [e]) s
    else .ok (some (none, before_needle), remaining, s)

/-- `bucket_utils::list_remove_first` (472-500). -/
def listRemoveFirstU {S T : Type} (p : T → S → Option Bool × S) (list : RList T) (s : S) : Res (Option (Option T) × RList T × S) := do
  match ← listRemoveLoopU p (list.len + 1) list [] s with
  | (none, remaining, s) => .ok (none, remaining, s)
  | (some (removed, before_needle), remaining, s) =>
    .ok (some removed, before_needle.reverse.foldl (fun l e => l.pushFrontMut e) remaining, s)

/-- `iter.find(p)`. -/
def iterFindU {S σ α : Type} (next : σ → Res (Option α × σ)) (p : α → S → Option Bool × S) : Nat → σ → S → Res (Option (Option α) × S)
  | 0, _, _ => .error .diverge
  | fuel + 1, it, s => do
    let (x, it') ← next it
    match x with
    | none => .ok (some none, s)
    | some a =>
      match p a s with
      | (none, s) => .ok (none, s)
      | (some true, s) => .ok (some (some a), s)
      | (some false, s) => iterFindU next p fuel it' s

namespace Bucket
variable {S H K V Q : Type}

/-- `Bucket::get` (508-518). -/
def getU (eq : S → K → Q → Option Bool × S) (key : Q) (keyHash : UInt64) (s : S) : Bucket K V → Res (Option (Option (HEntry K V)) × S)
  | .single e =>
    match e.matchesU eq key keyHash s with
    | (none, s) => .ok (none, s)
    | (some b, s) => .ok (some (if b then some e else none), s)
  | .collision entries => iterFindU ListIter.step (fun e => e.matchesU eq key keyHash) (entries.len + 1) entries.iter s

/-- `Bucket::get_mut` (520-541) and a write through the reference: `make_mut` of the entry may call `Clone` (691-693), when a found entry
of a collision is already at the front. -/
def getMutU (eq : S → K → Q → Option Bool × S) (clone : S → K × V → Option Unit × S) (key : Q) (keyHash : UInt64)
    (f : HEntry K V → HEntry K V) (s : S) : Bucket K V → Res (Option (Option (HEntry K V)) × Bucket K V × S)
  | .single e =>
    match e.matchesU eq key keyHash s with
    | (none, s) => .ok (none, .single e, s)
    | (some false, s) => .ok (some none, .single e, s)
    | (some true, s) =>
      match clone s (e.key, e.value) with
      | (none, s) => .ok (none, .single e, s)
      | (some _, s) => .ok (some (some e), .single (f e), s)
  | .collision entries => do
    match ← listRemoveFirstU (fun e => e.matchesU eq key keyHash) entries s with
    | (none, entries, s) => .ok (none, .collision entries, s)
    | (some none, entries, s) => .ok (some none, .collision entries, s)
    | (some (some e), entries, s) =>
      match clone s (e.key, e.value) with
      | (none, s) => .ok (none, .collision (entries.pushFrontMut e), s)
      | (some _, s) =>
        match (entries.pushFrontMut e).firstMutSet f with
        | none => .ok (some none, .collision (entries.pushFrontMut e), s)
        | some entries' => .ok (some (entries.pushFrontMut e).first, .collision entries', s)

/-- `Bucket::insert` (558-588). -/
def insertU (eq : S → K → K → Option Bool × S) (entry : HEntry K V) (s : S) : Bucket K V → Res (Option Bool × Bucket K V × S)
  | .single existing =>
    match existing.matchesU eq entry.key entry.keyHash s with
    | (none, s) => .ok (none, .single existing, s)
    | (some true, s) => .ok (some false, .single entry, s)
    | (some false, s) => .ok (some true, .collision ((RList.new.pushFrontMut existing.clone).pushFrontMut entry), s)
  | .collision entries => do
    match ← listRemoveFirstU (fun e => e.matchesU eq entry.key entry.keyHash) entries s with
    | (none, entries, s) => .ok (none, .collision entries, s)
    | (some removed, entries, s) => .ok (some !removed.isSome, .collision (entries.pushFrontMut entry), s)

/-- `Bucket::remove` (593-640). -/
def removeU (eq : S → K → Q → Option Bool × S) (key : Q) (keyHash : UInt64) (s : S) : Bucket K V → Res (Option Bool × Option (Bucket K V) × S)
  | .single e =>
    match e.matchesU eq key keyHash s with
    | (none, s) => .ok (none, some (.single e), s)
    | (some true, s) => .ok (some true, none, s)
    | (some false, s) => .ok (some false, some (.single e), s)
  | .collision entries => do
    match ← listRemoveFirstU (fun e => e.matchesU eq key keyHash) entries s with
    | (none, entries, s) => .ok (none, some (.collision entries), s)
    | (some removed, entries, s) =>
      match entries.len with
      | 0 => .error .unreachable
      | 1 => do
        let e ← unwrap entries.first
        .ok (some removed.isSome, some (.single e.clone), s)
      | _ => .ok (some removed.isSome, some (.collision entries), s)

end Bucket

namespace HNode
variable {S H K V Q : Type} (A : Arch)

mutual
/-- `Node::get` (250-272). -/
def getU (eq : S → K → Q → Option Bool × S) (key : Q) (keyHash : UInt64) (degree : Nat) : HNode K V → (depth : Nat) → S →
    Res (Option (Option (HEntry K V)) × S)
  | .branch bm arr, depth, s => do
    let index ← unwrap (← indexFromHash A keyHash depth degree)
    match ← SparseArray.slot A bm index with
    | none => .ok (some none, s)
    | some i => getAtU eq key keyHash degree arr i (depth + 1) s
  | .leaf b, _, s => b.getU eq key keyHash s
/-- The recursive call on `arr[i]`. -/
def getAtU (eq : S → K → Q → Option Bool × S) (key : Q) (keyHash : UInt64) (degree : Nat) : List (HNode K V) → (i depth : Nat) → S →
    Res (Option (Option (HEntry K V)) × S)
  | [], _, _, _ => .error .indexOutOfBounds
  | c :: _, 0, depth, s => getU eq key keyHash degree c depth s
  | _ :: cs, i + 1, depth, s => getAtU eq key keyHash degree cs i depth s
end

mutual
/-- `Node::get_mut` (274-296) and a write through the reference. -/
def getMutU (eq : S → K → Q → Option Bool × S) (clone : S → K × V → Option Unit × S) (key : Q) (keyHash : UInt64) (degree : Nat)
    (f : HEntry K V → HEntry K V) : HNode K V → (depth : Nat) → S → Res (Option (Option (HEntry K V)) × HNode K V × S)
  | .branch bm arr, depth, s => do
    let index ← unwrap (← indexFromHash A keyHash depth degree)
    match ← SparseArray.slot A bm index with
    | none => .ok (some none, .branch bm arr, s)
    | some i => do
      let (r, subtree, s) ← getMutAtU eq clone key keyHash degree f arr i (depth + 1) s
      let t ← SparseArray.writeSlot ⟨bm, arr⟩ i subtree
      .ok (r, .branch t.bitmap t.array, s)
  | .leaf b, _, s => do
    let (r, b, s) ← b.getMutU eq clone key keyHash f s
    .ok (r, .leaf b, s)
/-- The recursive call on `arr[i]`. -/
def getMutAtU (eq : S → K → Q → Option Bool × S) (clone : S → K × V → Option Unit × S) (key : Q) (keyHash : UInt64) (degree : Nat)
    (f : HEntry K V → HEntry K V) : List (HNode K V) → (i depth : Nat) → S → Res (Option (Option (HEntry K V)) × HNode K V × S)
  | [], _, _, _ => .error .indexOutOfBounds
  | c :: _, 0, depth, s => getMutU eq clone key keyHash degree f c depth s
  | _ :: cs, i + 1, depth, s => getMutAtU eq clone key keyHash degree f cs i depth s
end

/-- `Node::insert` (299-355). -/
def insertU (eq : S → K → K → Option Bool × S) (degree : Nat) : (fuel : Nat) → HEntry K V → HNode K V → (depth : Nat) → S →
    Res (Option Bool × HNode K V × S)
  | 0, _, _, _, _ => .error .diverge
  | fuel + 1, entry, .branch bm arr, depth, s => do
    let index ← unwrap (← indexFromHash A entry.keyHash depth degree)
    match ← SparseArray.slot A bm index with
    | some i => do
      let subtree ← vecIndex arr i
      let (isNew, subtree, s) ← insertU eq degree fuel entry subtree (depth + 1) s
      let t ← SparseArray.writeSlot ⟨bm, arr⟩ i subtree
      .ok (isNew, .branch t.bitmap t.array, s)
    | none => do
      let t ← SparseArray.set A ⟨bm, arr⟩ index (.leaf (.single entry))
      .ok (some true, .branch t.bitmap t.array, s)
  | fuel + 1, entry, .leaf b, depth, s => do
    let maximum_depth := (← indexFromHash A entry.keyHash depth degree).isNone
    match ← b.getU eq entry.key entry.keyHash s with
    | (none, s) => .ok (none, .leaf b, s)
    | (some r, s) =>
      if !maximum_depth then
        if r.isSome then do
          let (isNew, b, s) ← b.insertU eq entry s
          .ok (isNew, .leaf b, s)
        else
          match b with
          | .collision _ => .error .unreachable
          | .single e => do
            match ← insertU eq degree fuel e.clone newEmptyBranch depth s with
            | (none, n, s) => .ok (none, n, s)
            | (some _, n, s) =>
              match ← insertU eq degree fuel entry n depth s with
              | (none, n, s) => .ok (none, n, s)
              | (some _, n, s) => .ok (some true, n, s)
      else do
        let (isNew, b, s) ← b.insertU eq entry s
        .ok (isNew, .leaf b, s)

mutual
/-- `Node::remove` (388-442). -/
def removeU (eq : S → K → Q → Option Bool × S) (key : Q) (keyHash : UInt64) (degree : Nat) : HNode K V → (depth : Nat) → S →
    Res (Option Bool × HNode K V × S)
  | .branch bm arr, depth, s => do
    let index ← unwrap (← indexFromHash A keyHash depth degree)
    match ← SparseArray.slot A bm index with
    | none => .ok (some false, .branch bm arr, s)
    | some i => do
      let (r, subtree, s) ← removeAtU eq key keyHash degree arr i (depth + 1) s
      let subtrees ← SparseArray.writeSlot ⟨bm, arr⟩ i subtree
      match r with
      | none => .ok (none, .branch subtrees.bitmap subtrees.array, s)
      | some removed =>
        match ← subtree.isEmpty A, removed with
        | _, false => .ok (some removed, .branch subtrees.bitmap subtrees.array, s)
        | false, true => do
          let n ← compress A (.branch subtrees.bitmap subtrees.array)
          .ok (some removed, n, s)
        | true, true => do
          let subtrees ← subtrees.remove A index
          let n ← compress A (.branch subtrees.bitmap subtrees.array)
          .ok (some removed, n, s)
  | .leaf b, _, s => do
    match ← b.removeU eq key keyHash s with
    | (r, none, s) => .ok (r, newEmptyBranch, s)
    | (r, some b, s) => .ok (r, .leaf b, s)
/-- The recursive call on `arr[i]`. -/
def removeAtU (eq : S → K → Q → Option Bool × S) (key : Q) (keyHash : UInt64) (degree : Nat) : List (HNode K V) → (i depth : Nat) → S →
    Res (Option Bool × HNode K V × S)
  | [], _, _, _ => .error .indexOutOfBounds
  | c :: _, 0, depth, s => removeU eq key keyHash degree c depth s
  | _ :: cs, i + 1, depth, s => removeAtU eq key keyHash degree cs i depth s
end

end HNode

namespace HTMap
variable {S H K V Q : Type} (A : Arch)

/-- `HashTrieMap::insert_mut` (794-801): the hash is computed first; the size changes when `Node::insert` has returned. -/
def insertMutU (U : HTUser S H K V Q) (m : HTMap H K V) (key : K) (value : V) (s : S) : Res (Option Unit × HTMap H K V) :=
  match U.hashK s m.hasher key with
  | (none, _) => .ok (none, m)
  | (some kh, s) => do
    match ← m.root.clone.insertU A U.eqK m.degree insertFuel ⟨key, value, kh⟩ 0 s with
    | (none, root, _) => .ok (none, { m with root })
    | (some is_new_key, root, _) => .ok (some (), { m with root, size := if is_new_key then m.size + 1 else m.size })

/-- `HashTrieMap::remove_mut` (819-835). -/
def removeMutU (U : HTUser S H K V Q) (m : HTMap H K V) (key : Q) (s : S) : Res (Option Bool × HTMap H K V) :=
  match U.hashQ s m.hasher key with
  | (none, _) => .ok (none, m)
  | (some kh, s) => do
    match ← m.root.clone.removeU A U.eqQ key kh m.degree 0 s with
    | (none, root, _) => .ok (none, { m with root })
    | (some true, root, _) => do
      let size ← csub m.size 1
      .ok (some true, { m with root, size })
    | (some false, root, _) => .ok (some false, { m with root })

/-- `HashTrieMap::get_mut` (900-911) and a write through the reference. -/
def getMutU (U : HTUser S H K V Q) (m : HTMap H K V) (key : Q) (f : V → V) (s : S) : Res (Option (Option V) × HTMap H K V) :=
  match U.hashQ s m.hasher key with
  | (none, _) => .ok (none, m)
  | (some kh, s) => do
    let (r, root, _) ← m.root.clone.getMutU A U.eqQ U.clone key kh m.degree (fun e => e.valueMut f) 0 s
    .ok (r.map fun x => x.map fun e => e.value, { m with root })

/-- `self.root.get(key, hash(key), 0, self.degree)`. -/
def lookupU (U : HTUser S H K V Q) (m : HTMap H K V) (key : Q) (s : S) : Res (Option (Option (HEntry K V))) :=
  match U.hashQ s m.hasher key with
  | (none, _) => .ok none
  | (some kh, s) => do
    let (r, _) ← m.root.getU A U.eqQ key kh m.degree 0 s
    .ok r

/-- An operation on a map (see `HTMap.step`).  The answer is `none` if user code panicked; the panic is then caught somewhere outside and
the program goes on with the maps it has: the new map of `insert` or `remove` is lost, an updated map stays as it was left. -/
def stepU (U : HTUser S H K V Q) (s : S) (m : HTMap H K V) : MapOp K V Q → Res (Option (MapRet K V) × Effect (HTMap H K V))
  | .insert k v => do
    match ← m.clone.insertMutU A U k v s with
    | (none, _) => .ok (none, .keep)
    | (some _, m') => .ok (some .unit, .fresh m')
  | .insertMut k v => do
    match ← m.insertMutU A U k v s with
    | (none, m') => .ok (none, .update m')
    | (some _, m') => .ok (some .unit, .update m')
  | .remove q => do
    match ← m.clone.removeMutU A U q s with
    | (none, _) => .ok (none, .keep)
    | (some b, m') => .ok (some .unit, .fresh (if b then m' else m.clone))
  | .removeMut q => do
    match ← m.removeMutU A U q s with
    | (none, m') => .ok (none, .update m')
    | (some b, m') => .ok (some (.bool b), .update m')
  | .getMut q f => do
    match ← m.getMutU A U q f s with
    | (none, m') => .ok (none, .update m')
    | (some x, m') => .ok (some (.optV x), .update m')
  | .clone => .ok (some .unit, .fresh m.clone)
  | .get q => do
    let r ← m.lookupU A U q s
    .ok (r.map fun x => .optV (x.map fun e => e.value), .keep)
  | .getKeyValue q => do
    let r ← m.lookupU A U q s
    .ok (r.map fun x => .optKV (x.map fun e => (e.key, e.value)), .keep)
  | .containsKey q => do
    let r ← m.lookupU A U q s
    .ok (r.map fun x => .bool x.isSome, .keep)
  | .index q => do
    let r ← m.lookupU A U q s
    .ok (r.map fun x => match x with | none => .panicked | some e => .optV (some e.value), .keep)
  | .size => .ok (some (.nat m.getSize), .keep)
  | .isEmpty => .ok (some (.bool m.isEmpty), .keep)

end HTMap
end Rpds
