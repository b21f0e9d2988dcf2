import Verif.HashTrie.Model
import Verif.HashTrie.Set
import Verif.Upstream.Linear
/-
The project's own tests of hash trie maps and sets (/repo/src/map/hash_trie_map/test.rs, /repo/src/set/hash_trie_set/test.rs), run on the model (64 bit
machine, debug build).  Where the tests use the hasher of the standard library, here are other hash functions; keys and values that are
strings are numbers, and negative values positive; the loops over thousands of keys are over some dozens.
-/
set_option autoImplicit false
namespace Rpds
namespace Upstream
namespace Hash

/-- 64 bit, debug build. -/
abbrev A : Arch := ⟨.debug, 64⟩

/-- The equality of numbers with a hash function. -/
def keys (h : Nat → UInt64) : HashKeys Unit Nat Nat := ⟨id, fun _ => h, fun _ => h, (· == ·), (· == ·)⟩

/-- Spreads the keys (in place of the hasher of the standard library). -/
def spread : HashKeys Unit Nat Nat := keys fun n => UInt64.ofNat ((n + 1) * 0x9E3779B97F4A7C15)

/-- `LimitedHashSpaceHashBuilder`. -/
def limited (n : Nat) : HashKeys Unit Nat Nat := keys fun k => UInt64.ofNat ((k + 1) * 0x9E3779B97F4A7C15 / 2 ^ 20 % n)

/-- `PartialEq for EntryWithHash` of the tests. -/
def sameEntry (a b : HEntry Nat Nat) : Bool := a.key == b.key && a.value == b.value

/-- `PartialEq for Bucket` of the tests. -/
def sameBucket : Bucket Nat Nat → Bucket Nat Nat → Res Bool
  | .single a, .single b => .ok (sameEntry a b)
  | .collision a, .collision b => RList.eq sameEntry a b
  | _, _ => .ok false

mutual
/-- `PartialEq for Node` of the tests. -/
def sameNode : HNode Nat Nat → HNode Nat Nat → Res Bool
  | .branch bm cs, .branch bm' cs' => do return bm == bm' && (← sameNodes cs cs')
  | .leaf b, .leaf b' => sameBucket b b'
  | _, _ => .ok false
def sameNodes : List (HNode Nat Nat) → List (HNode Nat Nat) → Res Bool
  | [], [] => .ok true
  | c :: cs, c' :: cs' => do return (← sameNode c c') && (← sameNodes cs cs')
  | _, _ => .ok false
end

/-- A branch with some children. -/
def branch (cs : List (Nat × HNode Nat Nat)) : Res (HNode Nat Nat) := do
  let a ← cs.foldlM (fun s c => SparseArray.set A s c.1 c.2) SparseArray.new
  return .branch a.bitmap a.array

-- bucket::test_list_remove_first
example : Passes do
    let list := RList.listMacro [1, 2, 3]
    let (a, l0) ← listRemoveFirst (fun _ => false) list
    let (b, l1) ← listRemoveFirst (· == 1) list
    let (c, l2) ← listRemoveFirst (· == 2) list
    let (d, l3) ← listRemoveFirst (· == 3) list
    return [a.isNone, ← RList.eq Nat.beq l0 list, b.isSome, ← RList.eq Nat.beq l1 (RList.listMacro [2, 3]), c.isSome,
      ← RList.eq Nat.beq l2 (RList.listMacro [1, 3]), d.isSome, ← RList.eq Nat.beq l3 (RList.listMacro [1, 2])] := by decide +kernel

/-- The entries of the tests of buckets. -/
def entry (k v : Nat) : HEntry Nat Nat := HEntry.new spread () k v

-- bucket::test_get
example : Passes do
    let single := Bucket.single (entry 0xA 0)
    let collision := Bucket.collision (RList.listMacro [entry 0xB 1, entry 0xA 0])
    let get (b : Bucket Nat Nat) (k : Nat) : Res (Option (Nat × Nat)) := do
      return (← b.get spread k (spread.hashK () k)).map fun e => (e.key, e.value)
    return [(← get single 0xA) == some (0xA, 0), (← get single 0xB) == none, (← get collision 0xA) == some (0xA, 0),
      (← get collision 0xB) == some (0xB, 1), (← get collision 0xC) == none] := by decide +kernel
-- bucket::test_insert
example : Passes do
    let single_a := Bucket.single (entry 0xA 0)
    let collision_a_b_c := Bucket.collision (RList.listMacro [entry 0xA 0, entry 0xB 1, entry 0xC 2])
    let (a, b0) ← single_a.insert spread (entry 0xA 9)
    let (b, b1) ← single_a.insert spread (entry 0xB 1)
    let (c, b2) ← collision_a_b_c.insert spread (entry 0xB 9)
    let (d, b3) ← collision_a_b_c.insert spread (entry 0xD 2)
    return [!a, ← sameBucket b0 (.single (entry 0xA 9)), b, ← sameBucket b1 (.collision (RList.listMacro [entry 0xB 1, entry 0xA 0])), !c,
      ← sameBucket b2 (.collision (RList.listMacro [entry 0xB 9, entry 0xA 0, entry 0xC 2])), d,
      ← sameBucket b3 (.collision (RList.listMacro [entry 0xD 2, entry 0xA 0, entry 0xB 1, entry 0xC 2]))] := by decide +kernel
-- bucket::test_remove (without the bucket that is not there)
example : Passes do
    let single_a := Bucket.single (entry 0xA 0)
    let collision_a_b_c := Bucket.collision (RList.listMacro [entry 0xA 0, entry 0xB 1, entry 0xC 2])
    let remove (b : Bucket Nat Nat) (k : Nat) := b.remove spread k (spread.hashK () k)
    let (a, b0) ← remove single_a 0xA
    let (b, b1) ← remove single_a 0xB
    let (c, b2) ← remove collision_a_b_c 0xA
    let (d, b3) ← remove collision_a_b_c 0xD
    return [a, b0.isNone, !b, ← sameBucket (← unwrap b1) single_a, c,
      ← sameBucket (← unwrap b2) (.collision (RList.listMacro [entry 0xB 1, entry 0xC 2])), !d, ← sameBucket (← unwrap b3) collision_a_b_c] := by
  decide +kernel

-- node::test_new_empty_branch
example : (match (HNode.newEmptyBranch : HNode Nat Nat) with | .branch _ array => some array.length | .leaf _ => none) = some 0 := by decide +kernel
-- node::test_index_from_hash
example : [0, 1, 2, 3, 10, 11].map (fun d => indexFromHash A (UInt64.ofNat (0b000100100011000010100001 ||| (1 <<< 63))) d 64) =
      [.ok (some 0b100001), .ok (some 0b000010), .ok (some 0b100011), .ok (some 0b000100), .ok (some 0b001000), .ok none] ∧
    [15, 16].map (fun d => indexFromHash A (UInt64.ofNat (0b000100100011000010100001 ||| (1 <<< 63))) d 16) = [.ok (some 0b1000), .ok none] := by
  decide +kernel

/-- `dummy_hash_builder`. -/
def dummyKeys : HashKeys Unit Nat Nat := keys fun k => match k with
  | 0xA => 0b00100110
  | 0xB => 0b00010110
  | 0xC => 0b01000010
  | 0xD => UInt64.ofNat (0b00001000 ||| (0b0111 <<< 60))
  | 0xE => UInt64.ofNat (0b00001000 ||| (0b0111 <<< 60))
  | 0x0 => UInt64.ofNat (0b00001000 ||| (0b0111 <<< 60))
  | 0x1 => UInt64.ofNat (0b00000110 ||| (0b0101 <<< 60))
  | 0x2 => UInt64.ofNat (0b00001111 ||| (0b0111 <<< 60))
  | _ => 0

/-- `dummy_hash_trie_map`. -/
def dummy : Res (HTMap Unit Nat Nat) := do
  let e (k v : Nat) : HEntry Nat Nat := HEntry.new dummyKeys () k v
  let first ← branch [(1, .leaf (.single (e 0xB 1))), (2, .leaf (.single (e 0xA 0)))]
  let deep ← branch [(7, .leaf (.collision (RList.listMacro [e 0xE 4, e 0xD 3])))]
  let deep ← (List.range 14).foldlM (fun n _ => branch [(0, n)]) deep
  let root ← branch [(2, .leaf (.single (e 0xC 2))), (6, first), (8, deep)]
  return ⟨root, 5, 16, ()⟩

/-- The map of degree 16 with some pairs inserted. -/
def inserted (kvs : List (Nat × Nat)) : Res (HTMap Unit Nat Nat) := do
  kvs.foldlM (fun m p => m.insert A dummyKeys p.1 p.2) (← HTMap.newWithDegree A () 16)

/-- The answers for the keys of the tests. -/
def gets (m : HTMap Unit Nat Nat) : Res (List (Option Nat)) := [0xA, 0xB, 0xC, 0xD, 0xE, 0, 1, 2].mapM fun k => m.get A dummyKeys k

-- node::test_get, test_contains_key
example : Passes do
    let m ← dummy
    return [(← gets m) == [some 0, some 1, some 2, some 3, some 4, none, none, none], ← m.containsKey A dummyKeys 0xA,
      ← m.containsKey A dummyKeys 0xE, !(← m.containsKey A dummyKeys 0)] := by decide +kernel
-- node::test_get_mut
example : Passes do
    let original ← dummy
    let (_, m) ← original.clone.getMut A dummyKeys 0xB fun _ => 100
    let (_, m) ← m.getMut A dummyKeys 0xE fun _ => 100
    let (a, m) ← m.getMut A dummyKeys 0x1 fun _ => 100
    let (b, m) ← m.getMut A dummyKeys 0x2 fun _ => 100
    return [a.isNone, b.isNone, (← gets original) == [some 0, some 1, some 2, some 3, some 4, none, none, none],
      (← gets m) == [some 0, some 100, some 2, some 3, some 100, none, none, none]] := by decide +kernel
-- node::test_insert
example : Passes do
    let m0 ← inserted []
    let m1 ← m0.insert A dummyKeys 0xA 10
    let m2 ← m1.insert A dummyKeys 0xB 1
    let m3 ← m2.insert A dummyKeys 0xC 2
    let m4 ← m3.insert A dummyKeys 0xD 3
    let m5 ← m4.insert A dummyKeys 0xE 4
    let m ← m5.insert A dummyKeys 0xA 0
    return [[m0, m1, m2, m3, m4, m5, m].map (·.getSize) == [0, 1, 2, 3, 4, 5, 5],
      (← gets m) == [some 0, some 1, some 2, some 3, some 4, none, none, none], ← sameNode m.root (← dummy).root] := by decide +kernel
-- node::test_compress
example : Passes do
    let a : Bucket Nat Nat := .single (entry 0xA 0)
    let b : Bucket Nat Nat := .single (entry 0xB 1)
    let ab : Bucket Nat Nat := .collision (RList.listMacro [entry 0xA 0, entry 0xB 1])
    let same (n n' : HNode Nat Nat) : Res Bool := do sameNode (← n.compress A) n'
    let collision ← branch [(4, .leaf ab)]
    let two ← branch [(4, .leaf a), (7, .leaf b)]
    let nested ← branch [(4, .newEmptyBranch)]
    return [← same .newEmptyBranch .newEmptyBranch, ← same collision collision, ← same two two, ← same (← branch [(4, .leaf a)]) (.leaf a),
      ← same nested nested, ← same (.leaf a) (.leaf a), ← same (.leaf ab) (.leaf ab)] := by decide +kernel
-- node::test_remove
example : Passes do
    let m ← inserted [(0xA, 0), (0xB, 1), (0xC, 2), (0xD, 3), (0xE, 4)]
    let removed (ks : List Nat) : Res (HTMap Unit Nat Nat) := ks.foldlM (fun m k => m.remove A dummyKeys k) m
    let same (ks : List Nat) (kvs : List (Nat × Nat)) : Res Bool := do sameNode (← removed ks).root (← inserted kvs).root
    return [← sameNode m.root (← dummy).root, ← same [0xC] [(0xA, 0), (0xB, 1), (0xD, 3), (0xE, 4)],
      ← same [0xB] [(0xA, 0), (0xC, 2), (0xD, 3), (0xE, 4)], ← same [0xB, 0xA] [(0xC, 2), (0xD, 3), (0xE, 4)],
      ← same [0xD] [(0xA, 0), (0xB, 1), (0xC, 2), (0xE, 4)], ← same [0xD, 0xE] [(0xA, 0), (0xB, 1), (0xC, 2)],
      ← same [0xA, 0xB, 0xC, 0xD, 0xE] [], ← sameNode (← removed [0]).root m.root, ← sameNode (← removed [1]).root m.root,
      ← sameNode (← removed [2]).root m.root] := by decide +kernel

/-- `iterator_test`, `insert_test` and `remove_test` in one: insertions, overwriting, iteration and removal of every second key. -/
def longTest (o : HashKeys Unit Nat Nat) (degree limit overwrite : Nat) : Res (List Bool) := do
  let (m, bs) ← (List.range limit).foldlM (fun (x : HTMap Unit Nat Nat × List Bool) i => do
    let m ← x.1.insert A o i (i + 1000)
    return (m, (m.getSize == i + 1) :: ((← m.get A o i) == some (i + 1000)) :: ((← m.get A o (i / 2)) == some (i / 2 + 1000)) :: x.2))
    (← HTMap.newWithDegree A () degree, [])
  let items ← m.serialize
  let bs := (List.range limit).all (fun i => items.count (i, i + 1000) == 1) :: (items.length == limit) :: bs
  let (m, bs) ← (List.range overwrite).foldlM (fun (x : HTMap Unit Nat Nat × List Bool) i => do
    let m ← x.1.insertMut A o i (2 * i)
    return (m, (m.getSize == limit) :: ((← m.get A o i) == some (2 * i)) :: x.2)) (m, bs)
  let (_, bs) ← ((List.range (limit / 2)).map (2 * ·)).foldlM (fun (x : HTMap Unit Nat Nat × List Bool) i => do
    let m ← x.1.remove A o i
    let (b, m') ← x.1.removeMut A o i
    return (m, b :: (← sameNode m.root m'.root) :: (!(← m.containsKey A o i)) :: (m.getSize == limit - i / 2 - 1) ::
      (i == 0 || (← m.containsKey A o (i - 1))) :: x.2)) (m, bs)
  return bs

-- test_iter, test_insert, test_insert_mut, test_remove, test_remove_mut
example : Passes (longTest spread 2 14 3) := by decide +kernel
example : Passes (longTest spread 4 14 3) := by decide +kernel
example : Passes (longTest spread 16 14 3) := by decide +kernel
example : Passes (longTest spread 32 14 3) := by decide +kernel
example : Passes (longTest spread 64 14 3) := by decide +kernel
-- test_iter_high_collision, test_insert_high_collision, test_insert_high_collision_mut, test_remove_high_collision, test_remove_high_collision_mut
example : Passes (longTest (limited 2) 4 6 2) := by decide +kernel
example : Passes (longTest (limited 2) 16 6 2) := by decide +kernel
example : Passes (longTest (limited 2) 64 6 2) := by decide +kernel

/-- `ht_map!`. -/
def mac (kvs : List (Nat × Nat)) : Res (HTMap Unit Nat Nat) := HTMap.fromIter A spread () kvs

-- iter::test_iter_empty, test_iter_size_hint
example : Passes do
    let i0 := (← mac [(0, 10), (1, 11), (2, 12)]).iter
    let (_, i1) ← HTMap.iterNext i0
    let (_, i2) ← HTMap.iterNext i1
    let (_, i3) ← HTMap.iterNext i2
    let (e, _) ← HTMap.iterNext (← mac []).iter
    return [e.isNone, i0.sizeHint == 3, i1.sizeHint == 2, i2.sizeHint == 1, i3.sizeHint == 0] := by decide +kernel
-- iter::test_iter_keys, test_iter_values, test_into_iterator
example : Passes do
    let m ← mac [(0, 10), (1, 11), (2, 12)]
    let ks ← drain HTMap.keysNext 4 m.iter
    let vs ← drain HTMap.valuesNext 4 m.iter
    return [ks.length == 3, [0, 1, 2].all ks.contains, vs.length == 3, [10, 11, 12].all vs.contains, (← m.serialize).length == 3] := by
  decide +kernel
-- test_macro_ht_map
example : Passes do
    let e ← HTMap.new A ()
    let map_1 ← e.insert A spread 1 2
    let map_1_2_3 ← (← map_1.insert A spread 2 3).insert A spread 3 4
    return [← e.eq A spread Nat.beq false (← mac []), ← map_1.eq A spread Nat.beq false (← mac [(1, 2)]),
      ← map_1_2_3.eq A spread Nat.beq false (← mac [(1, 2), (2, 3), (3, 4)])] := by decide +kernel
-- test_get_key_value, test_insert_simple, test_insert_simple_mut
example : Passes do
    let m0 ← HTMap.new A ()
    let m1 ← m0.insertMut A spread 1 4
    let m2 ← m1.insert A spread 2 2
    let m3 ← m2.insertMut A spread 3 12
    let m4 ← m3.insert A spread 1 7
    return [[m0, m1, m2, m3, m4].map (·.getSize) == [0, 1, 2, 3, 3], (← m1.getKeyValue A spread 1) == some (1, 4),
      (← m2.getKeyValue A spread 1) == some (1, 4), (← m2.getKeyValue A spread 2) == some (2, 2),
      (← [1, 2, 3].mapM fun k => m3.get A spread k) == [some 4, some 2, some 12],
      (← [1, 2, 3].mapM fun k => m4.get A spread k) == [some 7, some 2, some 12]] := by decide +kernel
-- test_remove_simple, test_remove_simple_mut
example : Passes do
    let m ← mac [(1, 4), (2, 12), (3, 13), (4, 42)]
    let e ← mac []
    let m0 ← m.remove A spread 99
    let m1 ← m0.remove A spread 3
    let m2 ← m1.remove A spread 1
    let (b, m3) ← m2.removeMut A spread 4
    let m4 ← m3.remove A spread 2
    let (c, _) ← m4.removeMut A spread 2
    return [← (← e.remove A spread 3).eq A spread Nat.beq false e, [m, m0, m1, m2, m3, m4].map (·.getSize) == [4, 4, 3, 2, 1, 0], b, !c,
      (← [1, 2, 3, 4].mapM fun k => m0.get A spread k) == [some 4, some 12, some 13, some 42],
      (← [1, 2, 3, 4].mapM fun k => m1.get A spread k) == [some 4, some 12, none, some 42],
      (← [1, 2, 3, 4].mapM fun k => m2.get A spread k) == [none, some 12, none, some 42],
      (← [1, 2, 3, 4].mapM fun k => m4.get A spread k) == [none, none, none, none]] := by decide +kernel
-- test_index, test_from_iterator, test_default
example : Passes do
    let m ← mac [(5, 50), (12, 120)]
    let e : HTMap Unit Nat Nat ← HTMap.new A ()
    return [(← m.index A spread 5) == 50, (← m.index A spread 12) == 120, e.getSize == 0, e.isEmpty] := by decide +kernel
-- test_display
example : Passes do
    let s ← (← mac [(5, 50), (12, 120)]).display toString toString
    return [(← (← mac []).display toString toString) == "{}", (← (← mac [(1, 2)]).display toString toString) == "{1: 2}",
      s == "{5: 50, 12: 120}" || s == "{12: 120, 5: 50}"] := by decide +kernel
-- test_eq
example : Passes do
    let map_1 ← mac [(1, 0xa), (2, 0xb)]
    let map_2 ← mac [(1, 0xa), (2, 0xc)]
    let map_3 ← mac [(1, 0xa), (2, 0xc), (3, 0xc)]
    return [← map_1.eq A spread Nat.beq false (← mac [(1, 0xa), (2, 0xb)]),
      ← map_1.eq A spread Nat.beq false (← mac [(1, 0xa), (2, 0xb), (2, 0xb)]), ← map_1.eq A spread Nat.beq true map_1,
      ← map_2.eq A spread Nat.beq true map_2, !(← map_1.eq A spread Nat.beq false map_2), !(← map_2.eq A spread Nat.beq false map_3)] := by
  decide +kernel
-- test_clone, test_serde
example : Passes do
    let m ← mac [(5, 6), (7, 8), (9, 10), (11, 12)]
    let b ← match ← HTMap.deserialize A spread (E := Unit) () ((← m.serialize).map .ok) with
      | .error _ => .ok false
      | .ok decoded => m.eq A spread Nat.beq false decoded
    return [m.clone.getSize == m.getSize, (← m.clone.get A spread 5) == some 6, (← m.clone.get A spread 7) == some 8, b] := by decide +kernel

end Hash
end Upstream
end Rpds
