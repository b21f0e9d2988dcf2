import Verif.RedBlack.Model
import Verif.RedBlack.Set
import Verif.Upstream.Linear
/-
The project's own tests of red-black tree maps and sets (/repo/src/map/red_black_tree_map/test.rs, /repo/src/set/red_black_tree_set/test.rs), run on
the model (64 bit machine, debug build).  Keys and values that are strings are numbers in the order of the strings, and negative numbers are
shifted; the loops over thousands of keys are over some dozens, and the permutations are not random.
-/
set_option autoImplicit false
namespace Rpds
namespace Upstream
namespace RedBlack

/-- 64 bit, debug build. -/
abbrev A : Arch := ⟨.debug, 64⟩

/-- Numbers as keys. -/
def o : OrdKeys Nat Nat := ⟨compare, compare, (· == ·), id⟩

abbrev T := RBTree Nat Nat
abbrev N := RBNode Nat Nat

/-- A red and a black tree with `dummy_entry` of a key. -/
def R (k : Nat) (l r : T) : T := .some (k, k) .red l r
def B (k : Nat) (l r : T) : T := .some (k, k) .black l r
/-- `dummy_node`. -/
def D (k : Nat) : T := R k .none .none
/-- The same as nodes held by value. -/
def nR (k : Nat) (l r : T) : N := ⟨(k, k), .red, l, r⟩
def nB (k : Nat) (l r : T) : N := ⟨(k, k), .black, l, r⟩

def isNode (a : N) (t : T) : Bool := a.ptr == t

/-- `dummy_tree_0_1_2_3`. -/
def dummy : T := R 1 (D 0) (R 2 .none (D 3))

-- node::test_get, test_first, test_last
example : [0, 1, 2, 3, 4].map (fun k => (dummy.get o k).map (·.2)) = [some 0, some 1, some 2, some 3, none] ∧
    dummy.first.map (·.1) = some 0 ∧ dummy.last.map (·.1) = some 3 := by decide +kernel
-- node::test_get_mut
example : Passes do
    let (_, tree) := dummy.getMut o 2 fun _ => 12
    let (_, tree) := tree.getMut o 3 fun _ => 13
    let (a, tree) := tree.getMut o 4 fun _ => 14
    return [a.isNone, [0, 1, 2, 3, 4].map (fun k => (tree.get o k).map (·.2)) == [some 0, some 1, some 12, some 13, none]] := by decide +kernel

-- node::test_balance (x, y, z are 10, 11, 12 and a, b, c, d are 1, 2, 3, 4)
example : Passes do
    let a := B 1 .none .none
    let b := B 2 .none .none
    let c := B 3 .none .none
    let d := B 4 .none .none
    let case_1 := nB 12 (R 11 (R 10 a b) c) d
    let case_2 := nB 12 (R 10 a (R 11 b c)) d
    let case_3 := nB 10 a (R 12 (R 11 b c) d)
    let case_4 := nB 10 a (R 11 b (R 12 c d))
    let none_of_the_above := nB 12 (R 11 (B 10 a b) c) d
    let balanced := nR 11 (B 10 a b) (B 12 c d)
    return [isNode (← case_1.balance) balanced.ptr, isNode (← case_2.balance) balanced.ptr, isNode (← case_3.balance) balanced.ptr,
      isNode (← case_4.balance) balanced.ptr, isNode (← none_of_the_above.balance) none_of_the_above.ptr,
      isNode (← balanced.balance) balanced.ptr] := by decide +kernel
-- node::test_insert
example : Passes do
    let (b0, n0) ← (RBTree.none : T).insert o 0 1
    let (b1, n1) ← n0.insert o 0 2
    let (b2, n2) ← n1.insert o 10 3
    let (b3, n3) ← n2.insert o 10 4
    let (b4, n4) ← n3.insert o 5 5
    let (b5, n5) ← n4.insert o 0 1
    return [b0, n0 == .some (0, 1) .black .none .none, !b1, n1 == .some (0, 2) .black .none .none,
      b2, n2 == .some (0, 2) .black .none (.some (10, 3) .red .none .none),
      !b3, n3 == .some (0, 2) .black .none (.some (10, 4) .red .none .none),
      b4, n4 == .some (5, 5) .black (.some (0, 2) .black .none .none) (.some (10, 4) .black .none .none),
      !b5, n5 == .some (5, 5) .black (.some (0, 1) .black .none .none) (.some (10, 4) .black .none .none)] := by decide +kernel
-- node::test_remove_fuse (x is 10, y is 11, and a, c, d are 1, 3, 4)
example : Passes do
    let node := nR 99 .none .none
    let fuse (l r : T) : Res (Bool × T) := do
      let (b, n) ← RBNode.removeFuse A node l r
      return (b, n.ptr)
    let last ← (nR 10 (D 1) (B 11 (B 3 .none .none) (D 4))).removeBalanceLeft A
    return [(← fuse .none .none).1 == false, (← fuse .none (D 10)) == (true, D 10), (← fuse (D 10) .none) == (true, D 10),
      (← fuse (B 1 .none .none) (R 10 .none (D 3))) == (true, R 10 (B 1 .none .none) (D 3)),
      (← fuse (R 10 (D 1) .none) (B 3 .none .none)) == (true, R 10 (D 1) (B 3 .none .none)),
      (← fuse (R 10 (D 1) .none) (R 11 (D 3) (D 4))) == (true, R 3 (R 10 (D 1) .none) (R 11 .none (D 4))),
      (← fuse (R 10 (D 1) .none) (R 11 (B 3 .none .none) (D 4))) == (true, R 10 (D 1) (R 11 (B 3 .none .none) (D 4))),
      (← fuse (B 10 (D 1) .none) (B 11 (D 3) (D 4))) == (true, R 3 (B 10 (D 1) .none) (B 11 .none (D 4))),
      (← fuse (B 10 (D 1) .none) (B 11 (B 3 .none .none) (D 4))) == (true, last.ptr)] := by decide +kernel
-- node::test_remove_balance
example : Passes do
    return [isNode (← (nB 11 (R 10 (D 1) (D 2)) (R 12 (D 3) (D 4))).removeBalance A) (R 11 (B 10 (D 1) (D 2)) (B 12 (D 3) (D 4)))] := by
  decide +kernel
-- node::test_remove_balance_left (bl is 20)
example : Passes do
    let bl := B 20 .none .none
    let n2 ← (nB 10 bl (R 11 (D 1) (D 2))).removeBalance A
    let n3 ← (nB 12 (D 2) (D 3)).removeBalance A
    return [isNode (← (nB 11 (R 10 (D 1) (D 2)) (D 3)).removeBalanceLeft A) (R 11 (B 10 (D 1) (D 2)) (D 3)),
      isNode (← (nB 10 bl (B 11 (D 1) (D 2))).removeBalanceLeft A) n2.ptr,
      isNode (← (nB 10 bl (R 12 (B 11 (D 1) (D 2)) (B 3 .none .none))).removeBalanceLeft A) (R 11 (B 10 bl (D 1)) n3.ptr)] := by decide +kernel
-- node::test_remove_balance_right
example : Passes do
    let bl := B 20 .none .none
    let n2 ← (nB 11 (R 10 (D 1) (D 2)) bl).removeBalance A
    let n3 ← (nB 10 (D 1) (D 2)).removeBalance A
    return [isNode (← (nB 10 (D 1) (R 11 (D 2) (D 3))).removeBalanceRight A) (R 10 (D 1) (B 11 (D 2) (D 3))),
      isNode (← (nB 11 (B 10 (D 1) (D 2)) bl).removeBalanceRight A) n2.ptr,
      isNode (← (nB 12 (R 10 (B 1 .none .none) (B 11 (D 2) (D 3))) bl).removeBalanceRight A) (R 11 n3.ptr (B 12 (D 3) bl))] := by decide +kernel

/-- `black_height`. -/
def blackHeight : T → Option Nat
  | .none => some 0
  | .some _ c l r => do
    let a ← blackHeight l
    let b ← blackHeight r
    if a == b then some (b + if c == .black then 1 else 0) else none

/-- `red_nodes_have_black_children`. -/
def redOk : T → Bool
  | .none => true
  | .some _ c l r => (c == .black || (l.color != some .red && r.color != some .red)) && redOk l && redOk r

/-- `has_binary_search_property` (the keys in order). -/
def sorted : T → List Nat
  | .none => []
  | .some e _ l r => sorted l ++ e.1 :: sorted r

/-- `check_consistent`. -/
def consistent (m : RBMap Nat Nat) : Bool :=
  let ks := sorted m.root
  (ks.zip (ks.drop 1)).all (fun p => p.1 < p.2) && redOk m.root && (blackHeight m.root).isSome && m.root.color != some .red &&
    m.root.count == m.getSize

/-- `insert_test`, then `remove_test`. -/
def insertRemove (ins rem : List Nat) : Res (List Bool) := do
  let (m, bs) ← ins.foldlM (fun (x : RBMap Nat Nat × List Bool) v => do
    let m ← x.1.insertMut o v (2 * v)
    return (m, (m.get o v == some (2 * v)) :: (m.get o ins.head! == some (2 * ins.head!)) :: consistent m :: x.2)) (RBMap.new, [])
  let (m, bs) ← rem.foldlM (fun (x : RBMap Nat Nat × List Bool) v => do
    let (b, m) ← x.1.removeMut A o v
    return (m, b :: (!m.containsKey o v) :: consistent m :: x.2)) (m, bs)
  return m.isEmpty :: bs

-- internal::test_insert_sorted, test_remove_sorted
example : Passes (insertRemove (List.range 48) (List.range 48)) := by decide +kernel
example : Passes (insertRemove (List.range 48) (List.range 48).reverse) := by decide +kernel
-- internal::test_insert, test_remove (some permutations)
example : Passes (insertRemove ((List.range 47).map fun i => i * 11 % 47) ((List.range 47).map fun i => i * 29 % 47)) := by decide +kernel
example : Passes (insertRemove ((List.range 41).map fun i => i * i * i % 41) ((List.range 41).map fun i => i * 17 % 41)) := by decide +kernel
example : Passes (insertRemove ((List.range 43).map fun i => i * 5 % 43) ((List.range 43).map fun i => i * 26 % 43)) := by decide +kernel

-- iter::test_lg_floor
example : [1, 2, 3, 4, 5, 7, 8, 9, 15, 16, 17].map (lgFloor A) =
    [.ok 0, .ok 1, .ok 1, .ok 2, .ok 2, .ok 2, .ok 3, .ok 3, .ok 3, .ok 4, .ok 4] := by decide +kernel

/-- `rbt_map!`. -/
def mac (kvs : List (Nat × Nat)) : Res (RBMap Nat Nat) := RBMap.fromIter o kvs

-- iter::test_iter_empty, test_iter_empty_backwards
example : Passes do
    let m ← mac []
    let (a, _) ← RBMap.iterNext A o m.iter
    let (b, _) ← RBMap.iterNextBack A o m.iter
    return [a.isNone, b.isNone] := by decide +kernel
-- iter::test_iter_big_map, test_iter_big_map_backwards (with 64 in place of 512)
example : Passes do
    let m ← (List.range 64).reverse.foldlM (fun m i => RBMap.insert o m i (2 * i)) RBMap.new
    let m' ← (List.range 64).foldlM (fun m i => RBMap.insert o m i (2 * i)) RBMap.new
    let l ← drain (RBMap.iterNext A o) 65 m.iter
    let l' ← drain (RBMap.iterNextBack A o) 65 m'.iter
    return [l == (List.range 64).map (fun i => (i, 2 * i)), l' == ((List.range 64).map (fun i => (i, 2 * i))).reverse] := by decide +kernel
-- iter::test_iter_both_directions
example : Passes do
    let m ← mac [(0, 10), (1, 11), (2, 12), (3, 13), (4, 14), (5, 15)]
    let (a0, i) ← RBMap.iterNext A o m.iter
    let (a1, i) ← RBMap.iterNextBack A o i
    let (a2, i) ← RBMap.iterNextBack A o i
    let (a3, i) ← RBMap.iterNext A o i
    let (a4, i) ← RBMap.iterNext A o i
    let (a5, i) ← RBMap.iterNextBack A o i
    let (a6, i) ← RBMap.iterNextBack A o i
    let (a7, _) ← RBMap.iterNext A o i
    return [[a0, a1, a2, a3, a4, a5, a6, a7] ==
      [some (0, 10), some (5, 15), some (4, 14), some (1, 11), some (2, 12), some (3, 13), none, none]] := by decide +kernel
-- iter::test_iter_size_hint
example : Passes do
    let i0 := (← mac [(0, 10), (1, 11), (2, 12)]).iter
    let (_, i1) ← RBMap.iterNext A o i0
    let (_, i2) ← RBMap.iterNextBack A o i1
    let (_, i3) ← RBMap.iterNextBack A o i2
    return [[i0.sizeHint, i1.sizeHint, i2.sizeHint, i3.sizeHint] == [3, 2, 1, 0]] := by decide +kernel
-- iter::test_iter_sorted, test_iter_keys, test_iter_values, test_into_iterator
example : Passes do
    let m ← mac [(5, 0), (6, 1), (2, 2), (1, 3)]
    return [(← m.serialize A o) == [(1, 3), (2, 2), (5, 0), (6, 1)], (← drain (RBMap.keysNext A o) 5 m.iter) == [1, 2, 5, 6],
      (← drain (RBMap.valuesNext A o) 5 m.iter) == [3, 2, 0, 1]] := by decide +kernel

/-- `cmp` of `test_range`: forwards and backwards. -/
def ranges (m : RBMap Nat Nat) (start end_ : Bound Nat) (expected : List (Nat × Nat)) : Res Bool := do
  let it ← m.range o start end_
  return (← drain (fun i => i.next A o) 9 it) == expected && (← drain (fun i => i.nextBack A o) 9 it) == expected.reverse

-- iter::test_range
example : Passes do
    let m ← mac [(0, 0), (1, 2), (2, 4), (3, 6)]
    return [← ranges m .unbounded .unbounded [(0, 0), (1, 2), (2, 4), (3, 6)], ← ranges m (.included 1) .unbounded [(1, 2), (2, 4), (3, 6)],
      ← ranges m (.included 1) (.excluded 3) [(1, 2), (2, 4)], ← ranges m (.included 1) (.included 3) [(1, 2), (2, 4), (3, 6)],
      ← ranges m .unbounded (.excluded 3) [(0, 0), (1, 2), (2, 4)], ← ranges m (.excluded 1) (.included 3) [(2, 4), (3, 6)]] := by decide +kernel
-- iter::test_range_empty
example : Passes do
    let m ← mac [(0, 0), (1, 2), (10, 20), (11, 22)]
    return [← ranges m (.included 1) (.excluded 1) [], ← ranges m (.included 3) (.excluded 10) [], ← ranges m .unbounded (.excluded 0) [],
      ← ranges m (.included 3) (.included 9) [], ← ranges m (.included 13) .unbounded []] := by decide +kernel

-- test_macro_rbt_map
example : Passes do
    let e : RBMap Nat Nat := RBMap.new
    let m1 ← e.insert o 1 2
    let m3 ← (← m1.insert o 2 3).insert o 3 4
    return [← e.eq A o Nat.beq false (← mac []), ← m1.eq A o Nat.beq false (← mac [(1, 2)]),
      ← m3.eq A o Nat.beq false (← mac [(1, 2), (2, 3), (3, 4)])] := by decide +kernel
-- test_get_key_value, test_insert_simple, test_insert_mut_simple, test_contains_key (foo, bar, baz are 7, 1, 2)
example : Passes do
    let m0 : RBMap Nat Nat := RBMap.new
    let m1 ← m0.insertMut o 7 4
    let m2 ← m1.insert o 1 2
    let m3 ← m2.insertMut o 2 12
    let m4 ← m3.insert o 7 7
    return [[m0, m1, m2, m3, m4].map (·.getSize) == [0, 1, 2, 3, 3], m1.getKeyValue o 7 == some (7, 4), m2.getKeyValue o 7 == some (7, 4),
      m2.getKeyValue o 1 == some (1, 2), [7, 1, 2].map (m3.get o) == [some 4, some 2, some 12],
      [7, 1, 2].map (m4.get o) == [some 7, some 2, some 12], m4.containsKey o 2, !m4.containsKey o 9] := by decide +kernel

/-- `test_insert`, `test_insert_mut`, `test_remove`, `test_remove_mut` in one. -/
def longTest (limit overwrite : Nat) : Res (List Bool) := do
  let (m, bs) ← (List.range limit).foldlM (fun (x : RBMap Nat Nat × List Bool) i => do
    let m ← x.1.insert o i (i + 1000)
    return (m, (m.getSize == i + 1) :: (m.get o i == some (i + 1000)) :: (m.get o (i / 2) == some (i / 2 + 1000)) :: x.2)) (RBMap.new, [])
  let (m, bs) ← (List.range overwrite).foldlM (fun (x : RBMap Nat Nat × List Bool) i => do
    let m ← x.1.insertMut o i (2 * i)
    return (m, (x.1.get o i == some (i + 1000)) :: (m.getSize == limit) :: (m.get o i == some (2 * i)) :: x.2)) (m, bs)
  let (_, bs) ← ((List.range (limit / 2)).map (2 * ·)).foldlM (fun (x : RBMap Nat Nat × List Bool) i => do
    let m ← x.1.remove A o i
    let (b, m') ← x.1.removeMut A o i
    return (m, b :: (m.root == m'.root) :: (!m.containsKey o i) :: (m.getSize == limit - i / 2 - 1) :: (i == 0 || m.containsKey o (i - 1)) :: x.2))
    (m, bs)
  return bs

-- test_insert, test_insert_mut, test_remove, test_remove_mut
example : Passes (longTest 64 16) := by decide +kernel

-- test_remove_simple, test_remove_mut_simple (foo, bar, mumble, baz are 7, 1, 9, 2)
example : Passes do
    let m ← mac [(7, 4), (1, 12), (9, 13), (2, 42)]
    let e ← mac []
    let m0 ← m.remove A o 99
    let m1 ← m0.remove A o 9
    let m2 ← m1.remove A o 7
    let (b, m3) ← m2.removeMut A o 2
    let m4 ← m3.remove A o 1
    let (c, _) ← m4.removeMut A o 1
    return [← (← e.remove A o 3).eq A o Nat.beq false e, [m, m0, m1, m2, m3, m4].map (·.getSize) == [4, 4, 3, 2, 1, 0], b, !c,
      [7, 1, 9, 2].map (m0.get o) == [some 4, some 12, some 13, some 42], [7, 1, 9, 2].map (m1.get o) == [some 4, some 12, none, some 42],
      m2.get o 7 == none, m3.get o 2 == none, m4.get o 1 == none] := by decide +kernel
-- test_first, test_last, test_index, test_from_iterator, test_default, test_display
example : Passes do
    let m ← mac [(5, 50), (12, 120)]
    let e : RBMap Nat Nat := RBMap.new
    return [m.first == some (5, 50), m.last == some (12, 120), (← m.index o 5) == 50, (← m.index o 12) == 120, e.getSize == 0, e.isEmpty,
      (← e.display A o toString toString) == "{}", (← (← mac [(1, 2)]).display A o toString toString) == "{1: 2}",
      (← m.display A o toString toString) == "{5: 50, 12: 120}"] := by decide +kernel
-- test_eq
example : Passes do
    let map_1 ← mac [(1, 0xa), (2, 0xb)]
    let map_2 ← mac [(1, 0xa), (2, 0xc)]
    let map_3 ← mac [(1, 0xa), (2, 0xc), (3, 0xc)]
    return [← map_1.eq A o Nat.beq false (← mac [(1, 0xa), (2, 0xb)]), ← map_1.eq A o Nat.beq false (← mac [(1, 0xa), (2, 0xb), (2, 0xb)]),
      ← map_1.eq A o Nat.beq true map_1, ← map_2.eq A o Nat.beq true map_2, !(← map_1.eq A o Nat.beq false map_2),
      !(← map_2.eq A o Nat.beq false map_3)] := by decide +kernel
-- test_partial_ord, test_ord
example : Passes do
    let map_1 ← mac [(1, 0xa)]
    let map_2 ← mac [(2, 0xb)]
    let map_3 ← RBMap.fromIter o [(0, some 0)]
    let map_4 ← RBMap.fromIter o [(0, (none : Option Nat))]
    let pc (a b : RBMap Nat Nat) := a.partialCmp A o (fun x y => some (compare x y)) b
    return [(← pc map_1 map_1) == some .eq, (← pc map_1 map_2) == some .lt, (← pc map_2 map_1) == some .gt,
      (← map_3.partialCmp A o floatCmp map_4) == none, (← map_1.cmp A o compare map_1) == .eq, (← map_1.cmp A o compare map_2) == .lt,
      (← map_2.cmp A o compare map_1) == .gt] := by decide +kernel
-- test_hash, test_clone, test_serde
example : Passes do
    let h1 ← (← mac [(1, 0xa)]).hash A o hashNat hashNat hashNat []
    let h2 ← (← mac [(2, 0xb), (1, 0xa)]).hash A o hashNat hashNat hashNat []
    let m ← mac [(5, 6), (7, 8), (9, 10), (11, 12)]
    let b ← match ← RBMap.deserialize (E := Unit) o ((← m.serialize A o).map .ok) with
      | .error _ => .ok false
      | .ok decoded => m.eq A o Nat.beq false decoded
    return [h1 == (← (← mac [(1, 0xa)]).hash A o hashNat hashNat hashNat []), h1 != h2, m.clone.getSize == m.getSize, m.clone.get o 5 == some 6,
      m.clone.get o 7 == some 8, b] := by decide +kernel

namespace Set

/-- `rbt_set!`. -/
def mac (vs : List Nat) : Res (RBSet Nat) := RBSet.fromIter o vs

-- iter::test_iter_empty, test_iter (with 48 in place of 100)
example : Passes do
    let s ← (List.range 48).foldlM (fun s i => RBSet.insert o s i) RBSet.new
    return [(← (← mac []).serialize A o) == [], (← s.serialize A o) == List.range 48] := by decide +kernel
-- iter::test_iter_size_hint, test_into_iterator
example : Passes do
    let s ← mac [0, 1, 2]
    let i0 := s.iter
    let (_, i1) ← RBSet.iterNext A o i0
    let (_, i2) ← RBSet.iterNext A o i1
    let (_, i3) ← RBSet.iterNext A o i2
    return [[i0.sizeHint, i1.sizeHint, i2.sizeHint, i3.sizeHint] == [3, 2, 1, 0], (← s.serialize A o).length == 3] := by decide +kernel
-- iter::test_iter_sorted
example : Passes do return [(← (← mac [5, 6, 2, 1]).serialize A o) == [1, 2, 5, 6]] := by decide +kernel
-- iter::test_range_iterator (shifted by 20)
example : Passes do
    let s ← mac [0, 8, 12, 20, 22, 10, 13, 17, 25, 28, 30, 33, 37, 40]
    let i ← s.range o (.included 13) (.included 33)
    let (a0, i) ← RBSet.rangeNext A o i
    let (a1, i) ← RBSet.rangeNext A o i
    let (a2, i) ← RBSet.rangeNextBack A o i
    let (a3, i) ← RBSet.rangeNextBack A o i
    let (a4, i) ← RBSet.rangeNextBack A o i
    let (a5, i) ← RBSet.rangeNext A o i
    let (a6, i) ← RBSet.rangeNext A o i
    let (a7, i) ← RBSet.rangeNext A o i
    let (a8, i) ← RBSet.rangeNextBack A o i
    let (a9, _) ← RBSet.rangeNext A o i
    return [[a0, a1, a2, a3, a4, a5, a6, a7, a8, a9] ==
      [some 13, some 17, some 33, some 30, some 28, some 20, some 22, some 25, none, none]] := by decide +kernel
-- test_macro_rbt_set, test_from_iterator, test_default
example : Passes do
    let e : RBSet Nat := RBSet.new
    let s1 ← e.insert o 1
    let s3 ← (← s1.insert o 2).insert o 3
    return [← e.eq A o false (← mac []), ← s1.eq A o false (← mac [1]), ← s3.eq A o false (← mac [1, 2, 3]), e.size == 0, e.isEmpty] := by
  decide +kernel
-- test_insert, test_insert_mut, test_get (foo, bar, baz are 7, 1, 2)
example : Passes do
    let s0 : RBSet Nat := RBSet.new
    let s1 ← s0.insert o 7
    let s2 ← s1.insertMut o 1
    let s3 ← s2.insert o 2
    let s4 ← s3.insertMut o 7
    return [[s0, s1, s2, s3, s4].map (·.size) == [0, 1, 2, 3, 3], s1.contains o 7, [7, 1].all (s2.contains o), [7, 1, 2].all (s3.contains o),
      [7, 1, 2].all (s4.contains o), s1.get o 7 == some 7, s2.get o 7 == some 7, s2.get o 1 == some 1] := by decide +kernel
-- test_first, test_last
example : Passes do
    let s ← mac [3, 2, 1]
    return [s.first == some 1, s.last == some 3] := by decide +kernel
-- test_remove, test_remove_mut (foo, bar, mumble, baz are 7, 1, 9, 2)
example : Passes do
    let s ← mac [7, 1, 9, 2]
    let e ← mac []
    let s0 ← s.remove A o 99
    let (b1, s1) ← s0.removeMut A o 9
    let s2 ← s1.remove A o 7
    let (b3, s3) ← s2.removeMut A o 2
    let s4 ← s3.remove A o 1
    let (b5, _) ← s4.removeMut A o 1
    return [← (← e.remove A o 3).eq A o false e, [s, s0, s1, s2, s3, s4].map (·.size) == [4, 4, 3, 2, 1, 0], b1, b3, !b5,
      [7, 1, 9, 2].map (s0.contains o) == [true, true, true, true], [7, 1, 9, 2].map (s1.contains o) == [true, true, false, true],
      !s2.contains o 7, !s3.contains o 2, !s4.contains o 1] := by decide +kernel
-- test_is_disjoint
example : Passes do
    return [!(← (← mac [1, 2, 3]).isDisjoint A o (← mac [1, 2, 3])), !(← (← mac [1, 2, 3]).isDisjoint A o (← mac [0, 1])),
      ← (← mac [1, 2, 3, 7, 16]).isDisjoint A o (← mac [0, 4, 17])] := by decide +kernel
-- test_is_subset, test_is_superset
example : Passes do
    let s ← mac [1, 2, 3]
    let sub (a b : List Nat) : Res Bool := do (← mac a).isSubset A o false (← mac b)
    let sup (a b : List Nat) : Res Bool := do (← mac a).isSuperset A o false (← mac b)
    return [← s.isSubset A o true s, ← sub [] [1, 2, 3], ← sub [1, 2, 3] [1, 2, 3], !(← sub [1, 2, 3] [1, 2, 5, 6]), ← sub [1, 2, 3] [1, 2, 3, 5, 6],
      !(← sub [1, 2, 3, 5, 6] [1, 2, 3]), ← s.isSuperset A o true s, ← sup [1, 2, 3] [], ← sup [1, 2, 3] [1, 2, 3], !(← sup [1, 2, 5, 6] [1, 2, 3]),
      ← sup [1, 2, 3, 5, 6] [1, 2, 3], !(← sup [1, 2, 3] [1, 2, 3, 5, 6])] := by decide +kernel
-- test_display, test_eq
example : Passes do
    let s ← mac [1, 2]
    let s2 ← mac [1, 2, 3]
    return [(← (← mac []).display A o toString) == "{}", (← (← mac [7]).display A o toString) == "{7}",
      (← (← mac [5, 12]).display A o toString) == "{5, 12}", ← s.eq A o false (← mac [1, 2]), ← s.eq A o false (← mac [1, 2, 2]),
      ← s.eq A o true s, ← s2.eq A o true s2, !(← s.eq A o false s2)] := by decide +kernel
-- test_partial_ord, test_ord
example : Passes do
    let a ← mac [1]
    let b ← mac [2]
    return [(← a.partialCmp A o a) == some .eq, (← a.partialCmp A o b) == some .lt, (← b.partialCmp A o a) == some .gt, (← a.cmp A o a) == .eq,
      (← a.cmp A o b) == .lt, (← b.cmp A o a) == .gt] := by decide +kernel
-- test_hash, test_clone, test_serde
example : Passes do
    let h1 ← (← mac [1]).hash A o hashNat hashNat []
    let h2 ← (← mac [2, 1]).hash A o hashNat hashNat []
    let s ← mac [5, 6, 7, 8]
    let b ← match ← RBSet.deserialize (E := Unit) o ((← s.serialize A o).map .ok) with
      | .error _ => .ok false
      | .ok decoded => s.eq A o false decoded
    return [h1 == (← (← mac [1]).hash A o hashNat hashNat []), h1 != h2, s.clone.size == s.size, s.clone.contains o 5, s.clone.contains o 6, b] := by
  decide +kernel

end Set
end RedBlack
end Upstream
end Rpds
