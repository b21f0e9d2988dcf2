# rpds formal model: design

Source: orium/rpds at the commit in /repo (version 1.2.2-pre). Model and proofs: Lean 4.33, `lean/Verif/`.

## Trusted base

* Lean 4.33 kernel. Axioms: `propext`, `Classical.choice`, `Quot.sound` only (see "Axioms" below). No axioms of our own, no `sorry`,
  no `native_decide`/`bv_decide`; `decide +kernel` (evaluation by the kernel) is used for
  concrete witnesses and examples, and once exhaustively over all 256 values of a `u8` (`HashTrie/Lemmas.lean`).
* The reading of the Rust source: every definition of the model cites file and lines. The code was never compiled or run here, so
  the agreement of model and source rests on that reading.
* Rust's ownership discipline: `&mut` means exclusive access, so a function taking `&mut self` is modelled as a function
  returning the new value. The heap model (below) keeps pointers and counts and proves this view of pointers right.
* The user-supplied traits are lawful: `Ord` is a total order, `Eq` an equivalence, `Hash` respects `Eq`, `Borrow<Q>` respects
  all three, `Clone` returns an equal value. These are explicit hypotheses (`o.Lawful`) of the theorems that need them; C54 drops them.
* archery's `SharedPointer` (a dependency, not in /repo) behaves as `Rc`/`triomphe::Arc`: `new`, `clone` (count + 1),
  `drop` (count − 1, free at 0), `make_mut` (clone the pointee when count > 1), `try_unwrap`, `ptr_eq`.
* For C76, the orderings of these (triomphe and std are not in /repo): increments `Relaxed`, decrements `Release`, the uniqueness
  tests of `make_mut` and `try_unwrap` `Acquire`, an `Acquire` before the memory is freed; and that the allocator orders the release of memory before its reuse.
* For C77, the rules of the auto traits `Send` and `Sync`: read coinductively; `&T` has either just if `T: Sync`; containers of std and smallvec have
  those of what they hold; `SharedPointer` with `ArcTK` has either just if the pointee has both, with `RcK` never.
* The std pieces used: `Vec`, `Option`, iterator adaptors `map/chain/rev/find/all/eq/cmp/partial_cmp`, `mem::swap/replace`,
  `u64::leading_zeros`, `count_ones`, `trailing_zeros`.

## Axioms

Every theorem named in `MANIFEST.json` depends on `propext`, `Classical.choice` and `Quot.sound` and nothing else, except:

* `C13_vector_bad_bits_debug`, `C23_hash_degree_validated_partial`, `C35_rb_map_range_panics`, `C55_rb_map_no_panic`,
  `C55_rb_set_no_panic`, `C60_glue_same_memory`, `C60_glue_same_result`, `C64_list_collect_unbounded`, `C64_empty_but_panics`, `C64_zero_sized`, `C64_deserialize_hint`, `C65_debug_not_extensional`,
  `C69_hash_map_single_pair`, `C69_rb_map_depends_on_history`, `C73_hash_map_as_before`, `C74_rb_map_examples`,
  `C68_hash_kinds`, `C68_rb_kinds`, `C73_vector_room`, `C75_list_drop`, `C77_collections`, `C77_iterators`, `C77_parallel`, `C77_rc`: `propext` and `Quot.sound` only;
* `C13_vector_bad_bits_release`, `C55_hash_map_panic_loses_pairs`, `C55_hash_map_fickle_eq`, `C69_queue_depends_on_history`,
  `C74_ht_map_examples`, `C74_vector_examples`: `propext` only;
* `C64_stack_queue_collect_hint`: none.

Reproduce with `#print axioms Rpds.Props.<name>`.

## Modelling conventions

* `Res α = Except Panic α`: every panic (`unwrap` on `None`, index out of bounds, `unreachable!`, `expect`, failed `assert!`,
  failed `debug_assert!` and overflow in debug mode) is an explicit error value. Theorems say `= .ok …`, hence "does not panic".
* `usize` is `Nat` with a word size parameter `W` (`usize::BITS`); arithmetic which may over/underflow goes through
  `uadd/usub/umul/ushl`, which panic in `Mode.debug` and wrap in `Mode.release`. Theorems hold for both modes.
  Exception: the `size`/`length` counters of `List`, `Queue`, `HashTrieMap`, `RedBlackTreeMap` are unbounded. C72 justifies this: no counter
  exceeds the number of cells in use, and no reference count the number of pointers, so 2^W is out of reach. Red-black iteration does use the counter in machine arithmetic (`conservative_height`), hence
  the hypothesis `RBMap.Fits` (`size + 1 < 2^W`) there.
* A function on `&mut self` returns the new value; persistent variants (`push_front` …) are `clone` followed by the `_mut` variant,
  like in the code.
* Histories: an operation names one of a list of live versions, answers, and keeps it, replaces it or adds a new version
  (`Spec/History.lean`). The refinement theorems run the same history on the model and on a plain specification.
* Loops become structural or well-founded recursion. Where termination is itself in question (`HashTrieMap` insertion, the merge loops of
  sets, recursion on the heap) a fuel argument is used, and running out is the distinct error `Panic.diverge`.
* `Clone` of elements and `Drop` of elements have no effect in the value model (except in `Drop/*.lean`). Hashing is a function of a hasher value and the key.

## What is modelled

| source | model | simplifications |
|--------|-------|-----------------|
| `list/mod.rs` | `List/Model.lean`; heap: `Heap/List.lean` | all functions, macros, serde; capacity hints in `List/Hints.lean` |
| `stack/mod.rs`, `queue/mod.rs` | `Stack/Model.lean`, `Queue/Model.lean`; heap: `Heap/Linear.lean` | `LazilyReversedListIter` literally |
| `vector/mod.rs` | `Vector/Model.lean`; heap: `Heap/Vector.lean` | all bit arithmetic literally; a `Vec` is a list |
| `hash_trie_map/sparse_array_usize` | `HashTrie/Sparse.lean` | bitmap is a number, `count_ones` counted |
| `hash_trie_map/mod.rs` | `HashTrie/Model.lean`; heap: `Heap/HashTrie.lean` | in most heap theorems a freed collision leaf frees its list by recursion; `Heap/Glue.lean` has the loop of `Drop for List`, and the same effects on memory |
| `hash_trie_map/rayon.rs` | `HashTrie/Rayon.lean` | the scheduler is an arbitrary finite tree of split decisions |
| `red_black_tree_map/mod.rs` | `RedBlack/Model.lean`; heap: `Heap/RedBlack.lean` | statement by statement, including swaps |
| `hash_trie_set`, `red_black_tree_set` | `HashTrie/Set.lean`, `RedBlack/Set.lean` | wrappers and merge loops |
| `map/entry.rs`, `utils/mod.rs` | inside the above | `replace` is assignment |
| serde impls | in each model | the serializer is the sequence of items it gets, the deserializer the sequence of results it yields |
| `Display` and `Serialize` with sinks that fail | `Sink.lean` | the sink is a state with calls that may fail; serde's `collect_seq` and `collect_map` are their default implementations |
| `Ord`, `Eq`, `Hash` called by iterators, `==`, `cmp`, set algebra | `RedBlack/Ask.lean`, `HashTrie/Ask.lean` | the functions of the model again, each call of user code a question; proved to be the model when answers keep no state |
| `FromIterator`, `Extend`, `Deserialize` with sources that are code | `Source.lean` | a call gives an item, ends, fails or panics; the loop has fuel, running out means still running |
| `derive(Debug)` | `Debug.lean` | the tree of `fmt` calls and the text of `{:?}`; `fmt` of a pointer is that of its value |
| maps and vectors on the heap with user code that panics or lies | `Heap/RedBlackPanic*.lean`, `Heap/HashTriePanic*.lean`, `Heap/VectorPanic.lean`, values: `HashTrie/Unwind.lean` | user code is a function with a state that starts anew at each operation, does not touch the heap, and comes with the operation; `make_mut` of an entry always asks `Clone`; unwinding closes the borrows and drops what local variables own |
| operations in place and `Drop for List` when the `Drop` of an element panics | `Drop/*.lean` | the interrupted operations are written out again up to the point of the drop; an assignment whose old value panics still writes the new one; local variables are dropped by unwinding; exactly one drop panics |
| lists, stacks and queues on the heap when the `Drop` of the removed element panics | `Heap/Late.lean` | every operation may panic at its end |
| archery | `Heap/Model.lean` | see the trusted base |
| memory orderings of `Arc` | `Heap/Order.lean` | executions are interleavings of atomic steps in which uniqueness tests may read old counts; see C76 below |
| definitions of the types | `Traits/Model.lean` | only what they hold, for `Send` and `Sync`; lifetimes and other bounds left out |

Not modelled: `const fn`-ness, the default random hasher (an arbitrary function
instead), trait bounds other than `Send` and `Sync` (C77), allocation failure (except of the `Vec` reserved ahead in C64), overflow of reference counts, `Weak`, memory orderings weaker than sequential
consistency outside C76, panics raised inside user callbacks other than `Ord`, `Eq`, `Hash` and `Clone` in map and set operations (C55 value model,
C73 heap model), in `Vector::get_mut` (C71 value model, C73 heap model), in sources of items (C71), in iterators, `==`, `cmp` and set algebra (C68) and `Display` and `Serialize` of items (C67), and `Drop` of elements (C74, C75, value model; C73 for hash tries, lists, stacks and queues, and for replacements in vectors and red-black trees), benches and tests, the std/no_std distinction.

## Layout

* `Basic.lean`, `Iter.lean` — panics, machine arithmetic, iterator drivers (`Drives`, `drain`, `deCalls`, `fwCalls`); `Arith.lean`
  checks the machine arithmetic (checked in debug, wrapping in release builds) against `BitVec`.
* `Spec/*.lean` — the independent specifications: `Sequence`, `Seq`, `Vec` (lists), `Map`, `Set` (association maps), `Ordered`, `Order`
  (sorted contents, order laws), `Collect` (streams), `HashOrder` (order by bit groups), `Canonical` (the trie of a list of hashes), `Loose` (maps without laws), `History`.
* `<Structure>/Model.lean` and lemma files; `HashTrie/DegreeOne.lean` (maps of degree one); `Queue/Cost.lean` counts steps; `RedBlack/Balance.lean` the colour invariant;
  `*/Unlawful*.lean` the invariants that hold without laws; `*/Panic*.lean` the operations with user code that may panic (stateful
  functions, `none` = panic), `HashTrie/Cost.lean` and `RedBlack/Cost.lean` the same with a fuse that counts calls. The invariant
  `HNode.OK` has a flag that says whether branches are compressed; a panic in the middle of a leaf split leaves a branch that is not,
  which C54's lemmas tolerate. `List/Hints.lean`: collecting with size hints and limited memory. `Debug.lean`: derived `Debug`.
  `Sink.lean`: formatters and serializers that may fail. `Source.lean`: sources of items that may fail. `Ask.lean`: programs as trees of questions to user code; `*/Ask*.lean` iterators,
  equality and set algebra in this form, and how many questions they ask.
* `Traits/Model.lean` — what the types hold, and the auto traits.
* `Drop/*.lean` — operations in place interrupted by a panic in the `Drop` of what they remove; `Drop for List`. `Drop/Link.lean`: for hash tries
  these are the operations of `HashTrie/Unwind.lean` (`C73_hash_map_drop`). `Drop/Replace.lean`: `insert_mut` of red-black trees with any `Ord`, up to the drop of the replaced pair; `Props/PanicReplace.lean`.
* `Heap/Model` (memory, counts, atomic actions), `Own` (ownership invariant), `Logic` (proof rules), `Threads` (interleavings), `Client`,
  `System` (programs with handles), one file per structure, `Late` (operations that panic at their end), `Depth` and `Nest` (nesting of destructors), `Glue` (the machine with the loop of `Drop for List`), `Race`, `PtrEq`; `Borrow`, `Shared*` (handles lent to threads);
  `Iterate`, `Iter*` (clients with iterators), `IterCost*` (what they touch); `Cost*` (how many cells programs touch), `Space*` (how many they allocate), `Footprint`, `Weights` (how many the handles keep alive), `Counters` (different elements are in different cells); `InPlace*` (`_mut`
  methods of unshared collections); `Order*` (memory orderings: events and weak runs, the invariant, its steps, systems of threads).
* `Props/*.lean` — the property theorems, each with non-vacuity examples; `Props/Rejects.lean` proves that wrong programs (mostly lists and an
  unbalanced search tree) do not have the heap properties, `Props/RejectsSource.lean` the same of C71, `Props/RejectsUser.lean` of C67 and C68,
  `Props/RejectsMore.lean` of C60, C70 and C72 (lengths not counted down, hash maps not compressed, collision lists dropped without the loop),
  `Props/RejectsPanic.lean` and `Props/RejectsReplace.lean` of C73 (wrong clean-up after a panic).
* `Upstream/*.lean` — the project's own tests run on the model, as a check of the model and not of the theorems: every test that observes results
  (255 of the 276 `#[test]` functions), with the shapes of nodes they expect, and `test_drop_list` on the heap. All pass. Loops over thousands of elements
  are shortened, strings are numbers, the hasher is another one. Left out: the 19 tests that two pointer kinds agree (the model has one), `test_drop_large` (C45 is about this), `utils::test_replace`,
  and inside other tests `Send`/`Sync` of types and the capacity of a `Vec`.

## Per property

| id | model | proof |
|----|-------|-------|
| C01–C04 | `List` (nodes, cached `last`, `length`), `Stack` wrapper | invariant "cached fields agree with nodes", simulation to `List T` over version histories |
| C05–C07 | `Queue` as two lists, lazily reversed iterator | refinement `out ++ reverse in`; potential argument for C07 |
| C08–C15 | `Vector` trie with bits, height arithmetic in both modes, iterator stacks | invariant "left-complete trie of height h", refinement to `List T`; iterator invariant "stack denotes position" |
| C16–C25 | sparse array bitmap, buckets, trie, compression, iterator stack | structural invariant indexed by depth and hash prefix, refinement to association list |
| C26–C27, C40–C41 | set wrappers | corollaries of the map refinements, merge loops by induction on sorted lists |
| C28–C29, C61 | producer split/fold | induction over the tree of split decisions; for C61 each piece carries the path of its nodes |
| C30–C39 | red-black tree with literal swaps, Kahrs deletion, iterator stacks with bounds | in-order list refinement + red/black invariant |
| C42–C45, C52 | reference counted heap with handles | every program keeps the ownership invariant at every atomic step, for every interleaving; simulation to the specification |
| C46–C51 | streams of items | corollaries |
| C53 | trie iteration | in-order traversal is sorted by bit groups of the hash |
| C54 | maps and sets with arbitrary comparison functions | shape invariants that do not mention the order; one-pair-at-a-time specification `LooseStep` |
| C55 | map and set operations with user code that may panic | up to the panic agreement with the model without panics; what is left at each panic point |
| C56 | the same, with user code that panics after N calls | simulation of the run with the fuse by the run without |
| C57 | heap programs cut off at a number of actions | a bound for every path of the program, whatever memory answers; so cutting changes nothing |
| C58 | heap programs, number of cells in use | a bound on the allocations of every path of a program; releases only lower what is in use |
| C59 | threads that share handles | the ownership invariant with borrowed items: owned once by the lender, usable (read, cloned) by all |
| C60 | heap programs, nesting of destructors | every program keeps "the destructors of what is owned nest at most n deep" at every atomic step; trees are shallow by their invariants; the loop of `Drop for List` by simulation |
| C62 | heap iterators that keep addresses and read nodes one by one | simulation of the iterators of the value model; the handle's items are borrowed while it has an iterator |
| C63 | the same with each call counting the cells it touches | potential of the iterator's state; in a vector only nodes at the right edge have less than two entries, so two visits to a level are two steps of the level below apart |
| C64 | `Vec` with capacity over an allocator with a limit | the reservation fails or the result is that of the model without hints |
| C65 | tree of `fmt` calls | depth of the tree by induction, with the bounds on heights |
| C66 | heap programs under a watch that stops at failed uniqueness tests, copies and too many allocations | no cell has more than one reference (in linear structures: no node), kept by every action the operations use |
| C67 | `Display` and `Serialize` as calls on a sink with a state | the loops run the list of calls that the items determine, by induction over the iterator |
| C68 | programs as trees of questions to user code | a bound on the questions of every path, by weakest preconditions with a budget; plain iteration asks nothing; every question is of exactly one counted kind |
| C69 | hash tries with the entries forgotten; lists and vectors as they are | the invariants leave no choice: chunks of a list are unique, branches are sorted by position |
| C70 | heap programs, number of cells in use | the ownership invariant: every cell in use is reached from a handle; the trees behind the handles are as large as the invariants allow |
| C71 | `for` loops over sources that are code with a state; `Vector::get_mut` with `Clone` as a call | a source that stops determines the items it gave (`Feeds`); the loop runs over them by induction |
| C72 | heap programs, counters in handles and cells | the elements of a handle are in different cells: chains are acyclic, keys differ, a cell has one value |
| C73 | heap programs of maps, sets and vectors with arbitrary user code | refinement of the value model with panics; invariants that need no law (`RBMap.Loose`, `HTMap.Sound`); totality: the value model has an outcome for every user code. For hash maps also the panics of the library and of the `Drop` of a pair removed or replaced unwind (`HTMap.stepX`); where they do not panic this is the model of C55 (`C73_hash_map_as_before`). A panic of `Drop` can leave an empty branch below the last bits of the hash, where the library's `expect` panics at each later call with that hash; memory stays sound. The bound on memory counts nodes, as panics can leave collisions without entries and branches that are not compressed. Vectors refine sequences; calls have an outcome as long as there is room for the items. Lists, stacks and queues: any implementation, with operations that panic at their end (`Impl.late`). Replacements in place in red-black trees and vectors: the same for these operations alone (`Impl.lateOf`); that the drop may be put at the end is `C73_rb_map_replace_last` (any `Ord`) and `C74_vector_set_mut`. A `Drop` that panics in `remove_mut` of red-black trees or `drop_last_mut` of vectors has no heap model. User code that itself uses other handles of the program is not modelled as such; what it does is among the schedules of two threads, one of which runs the operation and the other what the user code does |
| C74 | removals and replacements interrupted by a panic of the dropped element | induction over the tree: what each level does after the inner call is skipped; iteration with a size that is too large; lists, queues, `set_mut` and red-black `insert_mut` are finished when the drop comes |
| C75 | `Drop for List` and the drop glue that unwinding runs | induction over the list |
| C76 | threads of C62 with events, happens-before and stale reads of counts | invariant `Ordered`: each past access to a cell happens before something done by a holder of the cell or by a release on its way to one, so the one holder left has seen all of them |
| C77 | the fields of all types, and the rules for auto traits as a greatest fixed point | coinduction for the recursive node types, unfolding otherwise |

What C57 counts: every action that allocates, reads, opens, closes, takes or releases a cell is one touch. Copying a pointer is counted
separately, and reading a cell pays for copying each pointer in it once (copying a node of a tree copies its pointers). A collision leaf of
`n` entries pays `14 * (n + 2)` touches. The releases that follow from the last release of a cell are not counted (the documentation does
not give the cost of dropping), except the explicit loop of `Drop for List`. The operations `iter n` of trees in these
clients read the whole tree, so they are not limited here; value models of the iterators are in C14, C20, C31, lazy ones on the heap in C62.

What C58 counts: cells in use (closed or opened), each node, element pointer and entry being one cell, whatever its size in bytes. `grown`
adds the bound of each operation of the client, by the plain values it works on. In a hash trie a collision leaf is copied with its list, so the
bound mentions `crowdAll`, the largest group of keys with the same hash in a value that the client holds; every collision leaf in memory belongs
to such a value (`Own.owned`: no closed cell is out of reach of the handles) and lies below level `64 / k`, so its keys have the same hash.

In C59 a lent handle is one that several threads have at once and nobody owns meanwhile (`&` of a version that outlives the threads, as in
`thread::scope`). Threads use it only in operations of `listByRef`, `vecByRef`, … (the methods that take `&self`; Rust's types enforce
this); they do not drop it. `SafeB A D B` are programs that own `D` and may read and clone, but not consume, the items `B`.

In C60 depth is counted in cells: releasing a cell inside the release of another is one level (a bound on the stack that the destructors
rustc generates take, up to a factor). The bound counts everything the program releases, also old nodes in the middle of an operation. The
heap programs run on two machines. `Thread.step` drops all that a freed cell holds by recursion. `GThread.step` (`Heap/Glue.lean`) drops the
`List` in a freed collision leaf by the loop of `Drop for List`, as the code does. The second one simulates the first: the same accesses to memory
in the same order, the same results and faults, no deeper nesting (`C60_glue_same_memory`, `C60_glue_same_result`); so all other theorems about
the heap hold for it too. For one thread hash tries then nest `63/k + 4` deep whatever the hashes (`C60_hash_map_drop_flat`); for several threads
the bound has `crowd`, the number of keys with the same hash, and needs it (finding 3).

In C62 an iterator keeps the addresses that the references in the code stand for, and `next` reads the nodes it passes and the item. The rule
of the borrow checker is the test `allowed` in the specification (`pureIClient`): commands that change or drop a handle with an iterator have no
meaning there, and examples show what they would do. Iterators over lists, queues and vectors answer with `size_hint`; for ranges of
red-black trees the lower bound 0. The recursion of the tree iterators has fuel that the invariants show to be enough (`2 * 66 + 1`
rounds of the loop for hash tries). `range` with bounds that panic (C35) has no meaning in the specification. The order of hash maps is that of
the value model (C53 describes it).

C63 counts the actions of C57, all reads here. `IteratorsCost` says it twice: a sequential client that runs an iterator and gets the number
of touches with each answer, and metered iterators (`IterImpl.meter`) that panic when they exceed their budget, in all clients and threads of
C62. The budget is a token bucket: `c` in advance, `c1` for each call, never more than `c` saved, so it bounds every window of calls.
The walk of a range iterator to its first item is paid by `c`. Pushing and popping the iterator's own stack touches no cells; each push
goes with a read, and there are no more pops than pushes.

C76 does not assume sequential consistency. An execution is an order of the steps in which every thread's program order and every read from
are respected (as in RC11, where such an order always exists). In it increments and decrements, being read-modify-writes, find the newest
count; contents are plain memory, and free of races, so reads find the newest value; a uniqueness test is a load, which may find any older value not
overwritten by a change that happens before the load (`Coherent`; `SetSince` and `Known` say which). To act on an old value of one is a fault in
`Thread.stepAt`. Read-read coherence and synchronisation of failed tests are ignored, which only allows more executions. `Before` is
happens-before: program order, a release of a count with a later acquire of the same count (all changes in between are read-modify-writes and
continue the release sequence), and freeing memory with allocating it again. What happens before the threads start (the setup) and after
they end is ordered by spawning and joining them. Examples show a stale test, and that without `Release` or without `Acquire` there are races.
`Safe` and `SafeB` say also that a uniqueness test is done on a pointer the program owns (`Act.Held`), which C76 needs.
`C76_events` says that the events are the right ones: a step reads and changes only the cell of its event; the event is exclusive just if
the step does more to the cell than change its count; it frees or allocates just if the step does, and it sets the count if the count changes.

Partial: C13 and C23 are false of the code as stated (the violations are theorems), C45 is false for lists shared by threads (theorem).

## Findings: where code and expectation differ

1. `HashTrieMap::new_with_degree(1)` is accepted (`is_power_of_two`), and inserting a second distinct key recurses forever (C23).
   Everything else works on such maps (`C23_hash_degree_one_exact`).
2. `Vector::new_with_bits(bits)` with `bits >= usize::BITS` is accepted; the first `push_back` panics in debug builds. In release builds
   the vector works up to `2^(bits mod usize::BITS)` items (one for `bits = 64`, two for 65); the next `push_back` writes over an item, iteration
   ends one item early, and lookups between the first and the last item panic (C13).
3. `Drop for List` with `ArcTK`: two threads dropping the last two handles can both fail `try_unwrap`; the last one then frees the chain
   recursively, one nested destructor per node (`C45_list_drop_race`); it cannot get worse than that (`C45_list_drop_bounded_partial`).
   The same race exists in leaves of `HashTrieMapSync` whose keys have the same hash (examples `exHTRace` in `Props/Glue.lean`).
4. `Queue::dequeue` is amortized O(1) only when old versions are not dequeued again; each reuse of a version pays the reversal again (C07,
   examples of C57).
5. The `ptr_eq` short-cut in `==` makes a map equal to its clone even if values are not equal to themselves (`f64::NAN`), while a rebuilt
   copy is not equal (C25, C52).
6. `RedBlackTreeMap::remove_mut` of an absent key may restructure and recolour the tree (contents unchanged); `HashTrieMap::get_mut` in a
   collision bucket moves the entry found to the front, so it changes the iteration order.
7. `SparseArrayUsize::pop` leaves the bitmap stale (the array is discarded by its only caller). The root of a `HashTrieMap` may be a leaf, when a
   removal left one pair; otherwise the shape does not depend on the history (C69).
8. `Vector` at exactly `2^(bits * floor((W-1)/bits))` elements panics on the next push in debug builds (C12). The limit is 2^17 for
   `bits = 17` on a 32 bit machine. Release builds go on: the shift in `root_max_capacity` wraps around, and the wrapped value never equals
   the length, so the vector stays right up to `usize::MAX` elements. The push after that wraps the length to zero.
9. `List::first_mut` (crate-internal) on a one-element list detaches the element from the cached `last`, which keeps the old value. Its
   only caller, `get_mut` of a collision bucket, never reads `last`; the representation invariant used for buckets does not mention it.
10. The parallel iterator asks `full()` between items; a consumer whose `full()` goes from true back to false is not covered (C29).
11. Panic safety: `bucket_utils::list_remove_first` pops entries off a collision list while it calls the user's `Eq`; if that panics, the
   entries popped so far are lost and `size` is too large; a later removal can reach `unreachable!()` (`C55_hash_map_panic_loses_pairs`).
   Nothing else is lost by panics: panics in `Hash` and `Clone` lose nothing, without collisions hash maps keep all pairs, and red-black
   trees compare only on the way down, before anything changes (C55).  A program sees this only if it uses the map after catching the panic.
12. `Node::insert` of a hash leaf calls `Eq` twice for the same pair. An `Eq` which answers differently the second time can put a collision
   bucket above the maximum depth (a later insert then reaches `unreachable!()`), or replace an entry while `size` is incremented
   (`C55_hash_map_fickle_eq`). C54 and C55 therefore assume that `Eq` does not change during one operation.
13. With an unlawful `Ord`, mixing `next` and `next_back` may yield an entry twice or end early, but never panics and never yields more than
   `size` entries (C54).
14. Inserting a key whose hash is exactly that of one stored key compares the two keys once per level of the trie (12 times for the usual
   degree, up to 66 for degree 2) before the pair reaches a collision bucket, where one comparison would do (C56).
15. `List::from_iter` reserves the *upper* bound of the iterator's size hint, and deserialization the length the input claims, so
   `(0..usize::MAX).filter(|_| false).collect::<List<_>>()` panics with a capacity overflow, or runs out of memory for smaller bounds; `Stack` and
   `Queue` inherit this. `Vec` itself reserves by the lower bound (C64).
16. `Debug` is derived, so printing a `List`, `Stack` or `Queue` with `{:?}` nests two calls for each item and overflows the stack for long ones,
   although their `Drop` is iterative for just this reason (C65). It also prints the nodes, so equal collections can print differently.
17. A panic in the `Drop` of a removed element, caught by the program, leaves collections that are wrong. `RedBlackTreeMap::remove_mut` drops the
   pair in the middle of `remove_fuse`, while local variables hold most of the subtree: of a map of any size at most four pairs may remain
   (`C74_rb_map_loses_all_but_four`). All maps keep a `size` that is too large by what was lost. `HashTrieMap::remove_mut` leaves an empty branch
   that may be below the last level, where even `get` panics; `Vector::drop_last_mut` leaves a length that is too large by one and an empty leaf,
   and one more `drop_last_mut` can make indices give other elements without a panic in release builds (C74). `Drop for List` unwinds into the
   recursive drop it is written to avoid (C75).

## Mutation testing

`seeded/LOG.jsonl`: one line per attempt, made in a scratch copy of this directory.

* `theorems_failed`: the declarations whose proofs no longer compile (the first ones reached; modules that import them are not built).
* `property_theorems_lost`: the property theorems that use one of those, directly or through other lemmas. This says that their proof is
  gone, not that their statement has become false.
* `evidence`: whether running the edited definitions also showed an answer that differs from the specification, which does say that a claim
  is false of them; `claim` then lists the claims so observed, otherwise the claim the edit was aimed at.
* Edits that turned out to change nothing a program can see are marked as equivalent in `note`.
* Entries with the note `automatic` come from random one-token edits of the definitions (swapped arguments, changed constants, operators,
  constructors and dropped statements) or, for definitions these do not reach, from a list of edits written by hand; those that do not compile are left out. The modules that depend on the edited one were compiled one after
  the other until one failed, so `theorems_failed` is the first declaration that failed, and `claim` the properties whose proofs use it.
* A run only counts as a failure if Lean names the line of an error. Four entries (`onHash`, `onKeysEq`, `onValuesEq`, `panicOf`) are of runs in
  which Lean was killed instead; what fails was found by evaluating the examples with `#eval` on the edited definitions, and the notes say so.
  For the first three only examples failed: the bounds of C68 are upper bounds on calls, and counting fewer does not contradict them.
  `C68_hash_kinds` and `C68_rb_kinds` (every call is of exactly one kind, and the kinds add up to all calls) were added for this.
* Entries whose note names a theorem of `Props/Rejects*.lean` were made in Lean: the wrong program is written out beside the model in `Props/Rejects*.lean`, and
  the statement of the property is proved to be false of it.
