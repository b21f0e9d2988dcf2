import Verif.HashTrie.Rayon
import Verif.Props.Heap
import Verif.Upstream.HashTrie
/-
The project's own tests of hash trie sets and of parallel iteration (/repo/src/set/hash_trie_set/test.rs, /repo/src/map/hash_trie_map/rayon.rs), and its test that
lists drop their elements (`test_drop_list` of /repo/src/list/test.rs), run on the model.
-/
set_option autoImplicit false
namespace Rpds
namespace Upstream
namespace HashSet
open Hash

/-- `ht_set!`. -/
def mac (vs : List Nat) : Res (HTSet Unit Nat) := HTSet.fromIter A spread () vs

-- iter::test_iter_empty, test_iter (with 24 in place of 100)
example : Passes do
    let s ← (List.range 24).foldlM (fun s i => HTSet.insert A spread s i) (← mac [])
    let l ← s.serialize
    return [(← (← mac []).serialize) == [], l.length == 24, (List.range 24).all l.contains] := by decide +kernel
-- iter::test_iter_size_hint, test_into_iterator
example : Passes do
    let s ← mac [0, 1, 2]
    let i0 := s.iter
    let (_, i1) ← HTSet.iterNext i0
    let (_, i2) ← HTSet.iterNext i1
    let (_, i3) ← HTSet.iterNext i2
    return [[i0.sizeHint, i1.sizeHint, i2.sizeHint, i3.sizeHint] == [3, 2, 1, 0], (← s.serialize).length == 3] := by decide +kernel
-- test_macro_ht_set, test_from_iterator, test_default
example : Passes do
    let e : HTSet Unit Nat ← HTSet.new A ()
    let s1 ← e.insert A spread 1
    let s3 ← (← s1.insert A spread 2).insert A spread 3
    return [← e.eq A spread false (← mac []), ← s1.eq A spread false (← mac [1]), ← s3.eq A spread false (← mac [1, 2, 3]), e.size == 0,
      e.isEmpty] := by decide +kernel
-- test_insert, test_insert_mut, test_get (foo, bar, baz are 7, 1, 2)
example : Passes do
    let s0 ← mac []
    let s1 ← s0.insert A spread 7
    let s2 ← s1.insertMut A spread 1
    let s3 ← s2.insert A spread 2
    let s4 ← s3.insertMut A spread 7
    return [[s0, s1, s2, s3, s4].map (·.size) == [0, 1, 2, 3, 3], ← s1.contains A spread 7,
      (← [7, 1, 2].mapM fun k => s2.contains A spread k) == [true, true, false],
      (← [7, 1, 2].mapM fun k => s4.contains A spread k) == [true, true, true],
      (← s1.get A spread 7) == some 7, (← s2.get A spread 7) == some 7, (← s2.get A spread 1) == some 1] := by decide +kernel
-- test_remove, test_remove_mut (foo, bar, mumble, baz are 7, 1, 9, 2)
example : Passes do
    let s ← mac [7, 1, 9, 2]
    let e ← mac []
    let s0 ← s.remove A spread 99
    let (b1, s1) ← s0.removeMut A spread 9
    let s2 ← s1.remove A spread 7
    let (b3, s3) ← s2.removeMut A spread 2
    let s4 ← s3.remove A spread 1
    let (b5, _) ← s4.removeMut A spread 1
    return [← (← e.remove A spread 3).eq A spread false e, [s, s0, s1, s2, s3, s4].map (·.size) == [4, 4, 3, 2, 1, 0], b1, b3, !b5,
      (← [7, 1, 9, 2].mapM fun k => s0.contains A spread k) == [true, true, true, true],
      (← [7, 1, 9, 2].mapM fun k => s1.contains A spread k) == [true, true, false, true],
      !(← s2.contains A spread 7), !(← s3.contains A spread 2), !(← s4.contains A spread 1)] := by decide +kernel
-- test_is_disjoint
example : Passes do
    return [!(← (← mac [1, 2, 3]).isDisjoint A spread (← mac [1, 2, 3])), !(← (← mac [1, 2, 3]).isDisjoint A spread (← mac [0, 1])),
      ← (← mac [1, 2, 3, 7, 16]).isDisjoint A spread (← mac [0, 4, 17])] := by decide +kernel
-- test_is_subset, test_is_superset
example : Passes do
    let s ← mac [1, 2, 3]
    let sub (a b : List Nat) : Res Bool := do (← mac a).isSubset A spread false (← mac b)
    let sup (a b : List Nat) : Res Bool := do (← mac a).isSuperset A spread false (← mac b)
    return [← s.isSubset A spread true s, ← sub [] [1, 2, 3], ← sub [1, 2, 3] [1, 2, 3], !(← sub [1, 2, 3] [1, 2, 5, 6]),
      ← sub [1, 2, 3] [1, 2, 3, 5, 6], !(← sub [1, 2, 3, 5, 6] [1, 2, 3]), ← s.isSuperset A spread true s, ← sup [1, 2, 3] [],
      ← sup [1, 2, 3] [1, 2, 3], !(← sup [1, 2, 5, 6] [1, 2, 3]), ← sup [1, 2, 3, 5, 6] [1, 2, 3], !(← sup [1, 2, 3] [1, 2, 3, 5, 6])] := by
  decide +kernel
-- test_display, test_eq
example : Passes do
    let s ← mac [1, 2]
    let s2 ← mac [1, 2, 3]
    let d ← (← mac [5, 12]).display toString
    return [(← (← mac []).display toString) == "{}", (← (← mac [7]).display toString) == "{7}", d == "{5, 12}" || d == "{12, 5}",
      ← s.eq A spread false (← mac [1, 2]), ← s.eq A spread false (← mac [1, 2, 2]), ← s.eq A spread true s, ← s2.eq A spread true s2,
      !(← s.eq A spread false s2)] := by decide +kernel
-- test_clone, test_serde
example : Passes do
    let s ← mac [5, 6, 7, 8]
    let b ← match ← HTSet.deserialize A spread (E := Unit) () ((← s.serialize).map .ok) with
      | .error _ => .ok false
      | .ok decoded => s.eq A spread false decoded
    return [s.clone.size == s.size, ← s.clone.contains A spread 5, ← s.clone.contains A spread 6, b] := by decide +kernel

end HashSet

namespace Parallel
open Hash Producer

/-- Some ways to split the work. -/
def plans : List Plan := [.fold, .split .fold .fold, .split (.split .fold .fold) .fold, .split (.split .fold (.split .fold .fold)) (.split .fold .fold)]

/-- The map with the keys `1..=n` and some values. -/
def upTo (o : HashKeys Unit Nat Nat) (n : Nat) (f : Nat → Nat) : Res (HTMap Unit Nat Nat) :=
  HTMap.fromIter A o () ((List.range n).map fun i => (i + 1, f (i + 1)))

/-- All the ways to split yield each entry once. -/
def each (m : HTMap Unit Nat Nat) (n : Nat) (f : Nat → Nat) : Res (List Bool) :=
  plans.mapM fun plan => do
    let l ← Producer.collect plan (Producer.new m)
    return l.length == n && (List.range n).all fun i => l.contains (i + 1, f (i + 1))

-- test_parallel_iterator_basic, _empty, _single_element, _large_dataset, _with_collisions
example : Passes (do each (← upTo spread 5 (10 * ·)) 5 (10 * ·)) := by decide +kernel
example : Passes (do each (← upTo spread 0 id) 0 id) := by decide +kernel
example : Passes (do each (← upTo spread 1 fun _ => 42) 1 fun _ => 42) := by decide +kernel
example : Passes (do each (← upTo spread 24 (2 * ·)) 24 (2 * ·)) := by decide +kernel
example : Passes (do each (← upTo (limited 2) 5 id) 5 id) := by decide +kernel
-- test_parallel_filter, _reduce, _all, _find_any, _any (with 20 in place of 100)
example : Passes do
    let m ← upTo spread 20 (2 * ·)
    let ls ← plans.mapM fun plan => Producer.collect plan (Producer.new m)
    let ps ← plans.mapM fun plan => do Producer.collect plan (Producer.new (← upTo spread 10 id))
    return [ls.all fun l => (l.filter fun e => e.1 % 2 == 0).length == 10, ls.all fun l => l.all fun e => e.2 % 2 == 0,
      ls.all fun l => l.any fun e => e.1 == 13, ls.all fun l => (l.find? fun e => e.1 == 7) == some (7, 14),
      ps.all fun l => (l.map (·.2)).foldl (· * ·) 1 == 3628800] := by decide +kernel

end Parallel

namespace Drop
open Heap Props

/-- `a`, `b`, `c`, `d`, `e` of `test_drop_list` are the elements 1 to 5: which of them are still in memory after the commands. -/
def inMemory (cmds : List (Cmd (RList.Op Nat))) : Option (List Nat) :=
  (outcome (bump _) 200 (client (listImpl Nat) [] cmds) []).map fun x => x.2.1.filterMap fun
    | .closed _ (.val v) _ => some v
    | _ => none

/-- The commands of the test: `x` is handle 0, `x2` handle 2 (of the intermediate list 1), `y` handle 3 and `z` handle 4. -/
def commands : List (Cmd (RList.Op Nat)) :=
  [.new, .run 0 (.pushFrontMut 1), .run 0 (.pushFrontMut 2), .run 0 (.pushFrontMut 3), .run 0 .dropFirst, .run 1 .dropFirst, .discard 1, .discard 0,
    .run 2 (.pushFront 4), .discard 2, .run 3 (.pushFront 5), .discard 3, .discard 4]

-- test_drop_list
example : inMemory (commands.take 4) = some [1, 2, 3] ∧ inMemory (commands.take 8) = some [1] ∧ inMemory (commands.take 10) = some [1, 4] ∧
    inMemory (commands.take 12) = some [1, 4, 5] ∧ inMemory commands = some [] := by decide +kernel

end Drop
end Upstream
end Rpds
