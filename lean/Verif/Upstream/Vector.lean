import Verif.HashTrie.Sparse
import Verif.Upstream.Linear
import Verif.Vector.Model
/-
The project's own tests of vectors and of sparse arrays (/repo/src/vector/test.rs, /repo/src/map/hash_trie_map/sparse_array_usize/test.rs), run on
the model (64 bit machine, debug build).  Tests on 32·32·32 + 1 elements are run on fewer here.  Capacities of `Vec`s are not in the model.
-/
set_option autoImplicit false
namespace Rpds
namespace Upstream
namespace Vector
open RVector

/-- 64 bit, debug build. -/
abbrev A : Arch := ⟨.debug, 64⟩

/-- A vector of given bits, with elements pushed one by one. -/
def pushed (bits : Nat) (xs : List Nat) : Res (RVector Nat) := do
  xs.foldlM (fun v x => v.pushBack A x) (← RVector.newWithBits bits)

/-- `dummy_vector_with_length`. -/
def dummy (len : Nat) : Res (RVector Nat) := do return { (← RVector.newWithBits 5) with length := len }

-- node::test_new_empty_branch, test_new_empty_leaf, test_drop_last_single_level
example : Passes do
    let singleton_node := (← vectorMacro A [0]).root
    let one_level_node := (← vectorMacro A [0, 1]).root
    let a ← (VNode.leaf ([] : List Nat)).dropLast
    let b ← (VNode.branch ([] : List (VNode Nat))).dropLast
    let c ← singleton_node.dropLast
    let d ← one_level_node.dropLast
    return [a.1, b.1, c.1, !d.1, d.2.used == 1] := by decide +kernel
-- node::test_drop_last_multi_level
example : (do (← pushed 1 [0, 1, 2]).root.dropLast) = .ok (false, .branch [.leaf [0, 1]]) ∧
    (do (← pushed 1 [0, 1, 2, 3]).root.dropLast) = .ok (false, .branch [.leaf [0, 1], .leaf [2]]) := by
  exact ⟨rfl, rfl⟩
-- iter::test_iter_empty, test_iter_empty_backwards
example : Passes do
    let v : RVector Nat ← RVector.new
    return [(← VIter.next A v.iter).1 == none, (← VIter.nextBack A v.iter).1 == none] := by decide +kernel
-- iter::test_iter_big_vector (65 elements with 2 bits)
example : Passes do return [(← (← pushed 2 (List.range 65)).serialize A) == List.range 65] := by decide +kernel
-- iter::test_iter_big_vector_backwards (65 elements with 2 bits), test_iter_backwards
example : Passes do
    return [(← drain (VIter.nextBack A) 66 (← pushed 2 (List.range 65)).iter) == (List.range 65).reverse,
      (← drain (VIter.nextBack A) 5 (← vectorMacro A [0, 1, 2, 3]).iter) == [3, 2, 1, 0]] := by decide +kernel
-- iter::test_iter_both_directions
example : Passes do
    let i ← vectorMacro A [0, 1, 2, 3, 4, 5]
    let (a, i) ← VIter.next A i.iter
    let (b, i) ← VIter.nextBack A i
    let (c, i) ← VIter.nextBack A i
    let (d, i) ← VIter.next A i
    let (e, i) ← VIter.next A i
    let (f, i) ← VIter.nextBack A i
    let (g, i) ← VIter.nextBack A i
    let (h, _) ← VIter.next A i
    return [a == some 0, b == some 5, c == some 4, d == some 1, e == some 2, f == some 3, g == none, h == none] := by decide +kernel
-- iter::test_iter_size_hint
example : Passes do
    let i0 := (← vectorMacro A [0, 1, 2]).iter
    let (_, i1) ← VIter.next A i0
    let (_, i2) ← VIter.nextBack A i1
    let (_, i3) ← VIter.nextBack A i2
    return [(← i0.sizeHint A) == 3, (← i1.sizeHint A) == 2, (← i2.sizeHint A) == 1, (← i3.sizeHint A) == 0] := by decide +kernel
-- iter::test_into_iterator
example : Passes do return [(← (← vectorMacro A [0, 1, 2, 3]).serialize A) == [0, 1, 2, 3]] := by decide +kernel
-- internal::test_degree
example : [1, 2, 3, 4, 5].map (vecDegree A) = [.ok 2, .ok 4, .ok 8, .ok 16, .ok 32] := by decide +kernel
-- internal::test_height
example : [0, 5, 32, 33, 64, 128, 512, 1024, 1025, 32768, 32769, 1048576, 1048577].map (fun n => do (← dummy n).height A) =
    [.ok 0, .ok 0, .ok 0, .ok 1, .ok 1, .ok 1, .ok 1, .ok 1, .ok 2, .ok 2, .ok 3, .ok 3, .ok 4] := by decide +kernel
-- internal::test_mask
example : [1, 2, 3, 4, 5].map (vecMask A) = [.ok 0b00001, .ok 0b00011, .ok 0b00111, .ok 0b01111, .ok 0b11111] := by decide +kernel
-- internal::test_bucket
example : [0, 1, 2, 3].map (vecBucket A 5 0b00100000110001000001) = [.ok 0b00001, .ok 0b00010, .ok 0b00011, .ok 0b00100] := by decide +kernel
-- internal::test_compress_root
example : compressRoot (.leaf ([] : List Nat)) = none ∧ compressRoot (.branch ([] : List (VNode Nat))) = none ∧
    (do return compressRoot (← vectorMacro A [0]).root) = .ok none ∧
    (do return compressRoot (← pushed 1 [0, 1, 3]).root) = .ok none ∧
    (do return compressRoot (.branch [(← pushed 1 [0, 1]).root])) = (do return some (← pushed 1 [0, 1]).root) :=
  ⟨rfl, rfl, rfl, rfl, rfl⟩
-- internal::test_root_max_capacity, test_is_root_full
example : [0, 5, 32, 33, 1024, 1025, 32768, 32769].map (fun n => do return (← (← dummy n).rootMaxCapacity A, ← (← dummy n).isRootFull A)) =
    [.ok (32, false), .ok (32, false), .ok (32, true), .ok (1024, false), .ok (1024, true), .ok (32768, false), .ok (32768, true),
      .ok (1048576, false)] := by decide +kernel
-- test_macro_vector
example : Passes do
    return [← RVector.eq A Nat.beq (← RVector.new) (← vectorMacro A []), ← RVector.eq A Nat.beq (← pushed 5 [1]) (← vectorMacro A [1]),
      ← RVector.eq A Nat.beq (← pushed 5 [1, 2, 3]) (← vectorMacro A [1, 2, 3])] := by decide +kernel
-- test_push_back_adds_element, test_push_back_maintains_size (70 elements)
example : Passes do
    let (_, bs) ← (List.range 70).foldlM (fun (x : RVector Nat × List Bool) i => do
      let v ← x.1.pushBack A (i + 7)
      return (v, (x.1.len == i) :: ((← v.get A i) == some (i + 7)) :: x.2)) (← RVector.new, [])
    return bs := by decide +kernel
-- test_drop_last_drops_last_element (22 elements with 2 bits)
example : Passes do
    let (v, vs) ← (List.range 22).foldlM (fun (x : RVector Nat × List (RVector Nat)) i => do
      let v ← x.1.pushBack A (2 * i)
      return (v, v :: x.2)) (← RVector.newWithBits 2, [])
    let (v, bs) ← vs.foldlM (fun (x : RVector Nat × List Bool) w => do
      return (← unwrap (← x.1.dropLast A), (← RVector.eq A Nat.beq x.1 w) :: x.2)) (v, [])
    return (← RVector.eq A Nat.beq v (← RVector.new)) :: bs := by decide +kernel
-- test_drop_last_keeps_vector_consistent (85 elements with 2 bits)
example : Passes do
    let v ← pushed 2 ((List.range 85).map (2 * ·))
    let v ← (List.range 16).foldlM (fun v _ => do unwrap (← RVector.dropLast A v)) v
    let bs ← (List.range 69).mapM fun i => do return (← v.get A i) == some (2 * i)
    return ((← v.get A 69) == none) :: bs := by decide +kernel
-- test_drop_last_maintains_size (70 elements), test_drop_last_on_empty_vector
example : Passes do
    let v ← pushed 5 (List.range 70)
    let (v, bs) ← (List.range 70).foldlM (fun (x : RVector Nat × List Bool) i => do
      return (← unwrap (← x.1.dropLast A), (x.1.len == 70 - i) :: x.2)) (v, [])
    return (v.len == 0) :: (← v.dropLast A).isNone :: (← (← RVector.new (T := Nat)).dropLast A).isNone :: bs := by decide +kernel
-- test_set_overwrites, test_get (1025 elements)
example : Passes do
    let v ← unwrap (← (← pushed 5 (List.range 1025)).set A 834 0)
    return [(← v.get A 833) == some 833, (← v.get A 834) == some 0, (← v.get A 835) == some 835, (← v.get A 1025) == none, (← v.get A 0) == some 0,
      (← v.get A 1024) == some 1024] := by decide +kernel
-- test_set_maintains_size (65 elements with 2 bits)
example : Passes do
    let (_, bs) ← (List.range 65).foldlM (fun (x : RVector Nat × List Bool) i => do
      let v ← unwrap (← x.1.set A i (i * i))
      return (v, (v.len == 65) :: ((← v.get A i) == some (i * i)) :: x.2)) (← pushed 2 (List.range 65), [])
    return bs := by decide +kernel
-- test_set_out_of_bounds
example : Passes do
    return [(← (← RVector.new).set A 0 0).isNone, (← (← vectorMacro A [0]).set A 1 0).isNone] := by decide +kernel
-- test_index, test_first, test_last
example : Passes do
    let v ← vectorMacro A [10, 11, 12]
    let e ← RVector.new (T := Nat)
    return [(← v.index A 0) == 10, (← v.index A 1) == 11, (← v.index A 2) == 12, (← e.first A) == none, (← v.first A) == some 10,
      (← e.last A) == none, (← v.last A) == some 12] := by decide +kernel
-- test_from_iterator, test_default
example : Passes do
    return [(← (← RVector.fromIter A [10, 11, 12, 13]).serialize A) == [10, 11, 12, 13], (← RVector.new (T := Nat)).len == 0] := by
  decide +kernel
-- test_display
example : Passes do
    return [(← (← RVector.new (T := Nat)).display A toString) == "[]", (← (← vectorMacro A ["hello"]).display A id) == "[hello]",
      (← (← vectorMacro A [0, 1, 2, 3]).display A toString) == "[0, 1, 2, 3]"] := by decide +kernel
-- test_eq
example : Passes do
    let vector_1 ← vectorMacro A [1, 1]
    let vector_2 ← vectorMacro A [1, 2]
    let vector_3 ← vectorMacro A [1, 2, 3]
    return [!(← RVector.eq A Nat.beq vector_1 vector_2), !(← RVector.eq A Nat.beq vector_2 vector_3), ← RVector.eq A Nat.beq vector_1 vector_1,
      ← RVector.eq A Nat.beq vector_1 (← vectorMacro A [1, 1]), ← RVector.eq A Nat.beq vector_2 vector_2] := by decide +kernel
-- test_partial_ord, test_ord
example : Passes do
    let v1 ← vectorMacro A [some 1]
    let v2 ← vectorMacro A [some 2]
    let a ← vectorMacro A [1]
    let b ← vectorMacro A [2]
    return [(← RVector.partialCmp A floatCmp v1 v1) == some .eq, (← RVector.partialCmp A floatCmp v1 v2) == some .lt,
      (← RVector.partialCmp A floatCmp v2 v1) == some .gt, (← RVector.partialCmp A floatCmp v1 (← vectorMacro A [none])) == none,
      (← RVector.cmp A compare a a) == .eq, (← RVector.cmp A compare a b) == .lt, (← RVector.cmp A compare b a) == .gt] := by decide +kernel
-- test_hash, test_clone, test_serde
example : Passes do
    let h1 ← RVector.hash A hashNat hashNat (← vectorMacro A [1]) []
    let h2 ← RVector.hash A hashNat hashNat (← vectorMacro A [1, 2]) []
    let v ← vectorMacro A [5, 6, 7, 8]
    let b ← match ← RVector.deserialize A (E := Unit) ((← v.serialize A).map .ok) with
      | .error _ => .ok false
      | .ok decoded => RVector.eq A Nat.beq v decoded
    return [h1 == (← RVector.hash A hashNat hashNat (← vectorMacro A [1]) []), h1 != h2, (← v.clone.serialize A) == (← v.serialize A),
      v.clone.len == v.len, b] := by decide +kernel
-- test_index_mut
example : Passes do
    let v1 ← vectorMacro A [1, 2, 3, 4, 5, 6]
    let v2 := v1.clone
    let v2 ← v2.indexMut A 0 10
    let v2 ← v2.indexMut A 4 50
    let v2 ← unwrap (← v2.modify A 5 (· * 10))
    return [(← v2.modify A v2.len id).isNone, (← v1.serialize A) == [1, 2, 3, 4, 5, 6], (← v2.serialize A) == [10, 2, 3, 4, 50, 60]] := by
  decide +kernel

end Vector

namespace Sparse
open SparseArray

abbrev A : Arch := ⟨.debug, 64⟩

-- test_new
example : (SparseArray.new : SparseArray Nat).bitmap = 0 ∧ (SparseArray.new : SparseArray Nat).array.length = 0 := ⟨rfl, rfl⟩
-- test_set
example : Passes do
    let array : SparseArray Nat := SparseArray.new
    let a1 ← array.set A 3 1
    let a2 ← a1.set A 60 2
    let a3 ← a2.set A 3 3
    return [array.size A == 0, (← array.get A 0) == none, (← array.get A 63) == none, a1.size A == 1, (← a1.get A 2) == none,
      (← a1.get A 3) == some 1, (← a1.get A 4) == none, a2.size A == 2, (← a2.get A 3) == some 1, (← a2.get A 60) == some 2, a3.size A == 2,
      (← a3.get A 3) == some 3, (← a3.get A 60) == some 2] := by decide +kernel
-- test_remove
example : Passes do
    let a ← (← (SparseArray.new : SparseArray Nat).set A 3 1).set A 60 2
    let b ← a.remove A 8
    let c ← b.remove A 3
    let d ← c.remove A 60
    return [(← a.get A 3) == some 1, (← a.get A 60) == some 2, (← b.get A 3) == some 1, (← b.get A 60) == some 2, b.size A == 2,
      (← c.get A 3) == none, (← c.get A 60) == some 2, c.size A == 1, (← d.get A 3) == none, (← d.get A 60) == none, d.size A == 0] := by
  decide +kernel
-- test_first
example : Passes do
    let a ← (SparseArray.new : SparseArray Nat).set A 8 1
    let b ← a.set A 60 2
    let c ← b.set A 2 3
    let d ← c.set A 0 3
    return [(SparseArray.new : SparseArray Nat).first == none, a.first == some 1, b.first == some 1, c.first == some 3, d.first == some 3] := by
  decide +kernel
-- test_pop
example : Passes do
    let a ← (← (SparseArray.new : SparseArray Nat).set A 60 2).set A 8 1
    return [a.pop.1 == some 2, a.pop.2.pop.1 == some 1, a.pop.2.pop.2.pop.1 == none] := by decide +kernel
-- test_map_index
example : (List.range 64).all (fun i => mapIndex A 0 i == .ok none) = true ∧
    (List.range 13).map (mapIndex A 0b111001000101) = [.ok (some 0), .ok none, .ok (some 1), .ok none, .ok none, .ok none, .ok (some 2),
      .ok none, .ok none, .ok (some 3), .ok (some 4), .ok (some 5), .ok none] := by decide +kernel

end Sparse
end Upstream
end Rpds
