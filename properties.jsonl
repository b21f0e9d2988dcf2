{"id": "C01", "title": "List behaves like an immutable sequence", "statement": "After any history of push_front, push_front_mut, drop_first, drop_first_mut, reverse, reverse_mut and clone applied to any previously obtained list versions, first(), last(), len(), is_empty() and iter() of every version answer exactly what a plain sequence undergoing the same history answers; drop_first returns None (drop_first_mut false) exactly on the empty list and then changes nothing; no operation panics.", "quantifier": "all element types and values, all finite histories over any number of live list versions", "why_tests_cant": "len() and last() are cached beside the nodes; a test samples a few histories, while the cached fields must agree with the nodes after every history of unbounded length.", "anchors": ["src/list/mod.rs: List::push_front_ptr_mut, drop_first_mut, reverse, reverse_mut, first, last, len, iter"]}
{"id": "C02", "title": "List reversal is an involution and both variants agree", "statement": "reverse() and reverse_mut() produce lists with the same contents, which are the original contents backwards; reversing twice gives back an equal list; reversal swaps first() and last() and keeps len().", "quantifier": "all lists reachable by any history", "why_tests_cant": "must hold at every length, including the cached last element which is computed before the pointers are turned around.", "anchors": ["src/list/mod.rs: reverse, reverse_mut"]}
{"id": "C03", "title": "List iteration is exact and fused", "statement": "iter() yields the elements front to back, at every point size_hint() is exactly (remaining, Some(remaining)), and after the last element next() answers None forever; the remaining counter never underflows.", "quantifier": "all reachable lists and any number of calls to next()", "why_tests_cant": "the counter and the cursor are separate fields that must agree at every step of every iteration.", "anchors": ["src/list/mod.rs: IterPtr::next, size_hint"]}
{"id": "C04", "title": "Stack is LIFO", "statement": "After any history of push, push_mut, pop, pop_mut over any versions, peek(), size(), is_empty() and iter() answer what a plain LIFO stack answers (iteration from the top); pop on an empty stack gives None / false and changes nothing.", "quantifier": "all element values, all histories over any number of versions", "why_tests_cant": "universally quantified over histories.", "anchors": ["src/stack/mod.rs: push_mut, pop_mut, peek, size, iter"]}
{"id": "C05", "title": "Queue is FIFO", "statement": "After any history of enqueue, enqueue_mut, dequeue, dequeue_mut and clone over any versions, peek(), len(), is_empty() and iter() answer what a plain FIFO queue answers; dequeue on an empty queue gives None / false and changes nothing; no operation panics.", "quantifier": "all element values, all histories over any number of versions", "why_tests_cant": "the queue is kept as two lists and is rebalanced lazily; which split is reached depends on the whole history.", "anchors": ["src/queue/mod.rs: peek, dequeue_mut, enqueue_mut, len, iter_ptr"]}
{"id": "C06", "title": "Queue observers do not reveal how the queue was built", "statement": "Two queues holding the same elements in the same order compare equal, compare Equal under Ord, hash to the same stream and iterate identically, no matter by which histories (or from_iter/deserialize) they were obtained; the iterator's size_hint is exact at every step including across the switch from the front part to the lazily reversed part.", "quantifier": "all pairs of reachable queues, all iteration steps", "why_tests_cant": "equality must hold for every pair of internal splits, of which there are n+1 per content.", "anchors": ["src/queue/mod.rs: PartialEq, Ord, Hash, LazilyReversedListIter::next, size_hint"]}
{"id": "C07", "title": "Queue operations are amortized constant when versions are not reused", "statement": "In any single-threaded-version history of enqueue_mut and dequeue_mut starting from an empty queue, the total number of nodes turned around by reversals is at most the number of enqueues; a history that keeps re-using an old version can pay the full reversal each time.", "quantifier": "all histories of mutating operations; for the second half, all n", "why_tests_cant": "an amortized bound speaks about every history.", "anchors": ["src/queue/mod.rs: dequeue_mut", "src/list/mod.rs: reverse_mut"]}
{"id": "C08", "title": "Vector behaves like an immutable indexed sequence", "statement": "For every branching parameter accepted below the word size, after any history of push_back, set, drop_last, get_mut and their _mut variants over any versions, get(i), first(), last(), len(), is_empty(), indexing and iter() answer exactly what a plain sequence answers, as long as the length stays within the representable capacity.", "quantifier": "all element values, all bits parameters 1..usize::BITS-1, all histories, all indices", "why_tests_cant": "the trie grows and shrinks levels at powers of the degree; tests visit a handful of sizes around the first few boundaries.", "anchors": ["src/vector/mod.rs: push_back_mut, assoc, get, set_mut, drop_last_mut, compress_root, height"]}
{"id": "C09", "title": "Vector bounds behaviour", "statement": "get(i)/get_mut(i) are None exactly when i >= len(); set(i,v) is None / set_mut false exactly when i >= len() and then nothing changed; drop_last is None / false exactly when empty; v[i] panics exactly when i >= len().", "quantifier": "all reachable vectors, all indices", "why_tests_cant": "quantifies over every index and every vector.", "anchors": ["src/vector/mod.rs: get, set_mut, get_mut, Index, IndexMut, drop_last_mut"]}
{"id": "C10", "title": "Vector in-place element update is local", "statement": "Writing through get_mut(i)/IndexMut changes element i to the written value and leaves every other index, len() and iteration order unchanged.", "quantifier": "all reachable vectors, all valid i, all written values", "why_tests_cant": "quantifies over all sizes and all other indices.", "anchors": ["src/vector/mod.rs: Node::get_mut, Vector::get_mut, IndexMut"]}
{"id": "C11", "title": "Vector double-ended iteration under any interleaving", "statement": "For any interleaving of next() and next_back() the values produced are exactly those of a double-ended iteration of the sequence: fronts in order, backs in reverse order, nothing twice, nothing lost, None once (and forever after) the two ends meet; size_hint is exact after every call; nothing panics.", "quantifier": "all reachable vectors, all finite call sequences over {next, next_back}", "why_tests_cant": "there are 2^n interleavings of a vector of n elements and two independent traversal stacks that must agree.", "anchors": ["src/vector/mod.rs: IterPtr::next, next_back, dig, advance, size_hint"]}
{"id": "C12", "title": "Vector operations never panic or overflow within capacity", "statement": "No public vector operation panics (other than the documented out-of-bounds indexing and bits = 0), trips a debug assertion or overflows arithmetic while the length stays within 2^(bits*floor((usize::BITS-1)/bits)) in debug arithmetic, and within usize::MAX in release arithmetic.", "quantifier": "all bits 1..usize::BITS-1, all histories within the capacity, both arithmetic modes", "why_tests_cant": "internal shifts depend on the height, which tests only drive to 3 or 4.", "anchors": ["src/vector/mod.rs: height, root_max_capacity, vector_utils::bucket, assoc"]}
{"id": "C13", "title": "Vector branching parameter is validated", "statement": "new_with_bits(bits) either panics or returns a vector on which the sequence laws (C08) hold.", "quantifier": "all u8 values of bits", "why_tests_cant": "tests do not enumerate the parameter together with all histories. (The code violates this for bits >= usize::BITS; the violation is proved.)", "anchors": ["src/vector/mod.rs: new_with_bits, vector_utils::degree, root_max_capacity"]}
{"id": "C14", "title": "Vector depth is logarithmic", "statement": "A vector of n >= 2 elements is a trie in which every element is reached through exactly ceil(log_degree(n)) levels, and all leaves but the last are full.", "quantifier": "all reachable vectors", "why_tests_cant": "a structural invariant over all sizes and histories (push/drop sequences).", "anchors": ["src/vector/mod.rs: push_back_mut, drop_last_mut, compress_root, height"]}
{"id": "C15", "title": "Vector comparison ignores the branching parameter", "statement": "Equality, partial/total order and the hash stream of vectors depend only on their contents, not on bits or history; equality coincides with order Equal and implies equal hash streams.", "quantifier": "all pairs of reachable vectors, all bits", "why_tests_cant": "universally quantified over pairs of internal shapes.", "anchors": ["src/vector/mod.rs: PartialEq, PartialOrd, Ord, Hash"]}
{"id": "C16", "title": "HashTrieMap behaves like a finite map for every hash function", "statement": "For every hash function respecting key equality (including constant ones) and every accepted degree >= 2, after any history of insert, remove, get_mut and their variants over any versions, get, get_key_value, contains_key, size, is_empty, indexing and iteration contents answer exactly what a plain association map answers.", "quantifier": "all key types with lawful Eq/Hash/Borrow, all 64-bit hash functions, all degrees 2^b with 2 <= 2^b <= usize::BITS, all histories over any number of versions", "why_tests_cant": "collisions, prefix collisions and re-compression after removals depend on the hash of every key; no test can enumerate hash functions.", "anchors": ["src/map/hash_trie_map/mod.rs: Node::insert, Node::remove, Node::get, Node::compress, Bucket::insert, Bucket::remove, list_remove_first", "src/map/hash_trie_map/sparse_array_usize/mod.rs: set, get, remove"]}
{"id": "C17", "title": "HashTrieMap size counts distinct keys", "statement": "size() equals the number of distinct keys present and the number of items iteration yields; is_empty() iff no key is present; inserting an existing key and removing an absent key keep size().", "quantifier": "all reachable maps", "why_tests_cant": "size is a cached counter driven by the return value of the recursive operations.", "anchors": ["src/map/hash_trie_map/mod.rs: insert_mut, remove_mut, size"]}
{"id": "C18", "title": "HashTrieMap iteration yields every entry exactly once", "statement": "iter()/keys()/values() yield each present entry exactly once, in the same order for the three, size_hint is exact at every step, the counter never underflows and next() stays None at the end.", "quantifier": "all reachable maps, every hash function", "why_tests_cant": "depends on every reachable trie shape.", "anchors": ["src/map/hash_trie_map/mod.rs: IterPtr::next, IterStackElement::next, size_hint"]}
{"id": "C19", "title": "HashTrieMap operations never panic", "statement": "None of the internal panics (hash exhausted on a branch, collision above maximum depth, collision with fewer than two entries, array index) is reachable from the public API for degree >= 2.", "quantifier": "all histories, all hash functions, all degrees >= 2", "why_tests_cant": "the branches are declared unreachable by the authors; a test cannot show unreachability.", "anchors": ["src/map/hash_trie_map/mod.rs: Node::insert (expect, unreachable!), Bucket::remove (unreachable!), Node::is_empty (debug_assert!)"]}
{"id": "C20", "title": "HashTrieMap get_mut updates one value only", "statement": "get_mut(k) is Some exactly when k is present; writing through it changes the value of that key only; keys, size and all other values are unchanged, also inside a bucket of colliding keys (which it may reorder).", "quantifier": "all reachable maps, all keys, all written values, all hash functions", "why_tests_cant": "colliding buckets are rotated by get_mut; correctness must hold for each bucket content.", "anchors": ["src/map/hash_trie_map/mod.rs: Node::get_mut, Bucket::get_mut, value_mut"]}
{"id": "C21", "title": "HashTrieMap removal of an absent key is a no-op", "statement": "remove(k) of an absent key returns an equal map that shares the original root, remove_mut returns false and leaves every lookup, size and iteration order as it was.", "quantifier": "all reachable maps, all absent keys", "why_tests_cant": "the mutable path rebuilds buckets before it knows whether the key is present.", "anchors": ["src/map/hash_trie_map/mod.rs: remove, remove_mut, list_remove_first"]}
{"id": "C22", "title": "Inserting an equal key replaces both key and value", "statement": "After insert(k, v), get_key_value of any key equal to k answers exactly the new (k, v), also when an equal but distinguishable key was present, for both map types; other keys are unaffected.", "quantifier": "all reachable maps of both kinds, all pairs of equal keys", "why_tests_cant": "must hold at every position of every trie/tree/bucket.", "anchors": ["src/map/hash_trie_map/mod.rs: Bucket::insert, insert_mut", "src/map/red_black_tree_map/mod.rs: Node::insert"]}
{"id": "C23", "title": "HashTrieMap degree is validated", "statement": "Creating a map with a degree panics unless the degree is a power of two not above usize::BITS; with any accepted degree every operation terminates and the map laws hold.", "quantifier": "all u8 degrees, all histories", "why_tests_cant": "(The code accepts degree 1, for which inserting a second key does not terminate; the violation is proved.)", "anchors": ["src/map/hash_trie_map/mod.rs: new_with_hasher_and_degree_and_ptr_kind, index_from_hash, Node::insert"]}
{"id": "C24", "title": "HashTrieMap lookups have bounded depth and the trie is compressed", "statement": "Every lookup visits at most ceil(64/log2(degree)) + 1 nodes whatever the number of entries; non-root branches always hold at least two entries; colliding buckets exist only at the maximum depth and hold at least two entries with identical hashes.", "quantifier": "all reachable maps, all hash functions", "why_tests_cant": "a structural invariant over all insert/remove histories.", "anchors": ["src/map/hash_trie_map/mod.rs: Node::insert, Node::compress, Node::remove, index_from_hash"]}
{"id": "C25", "title": "HashTrieMap equality is extensional", "statement": "a == b exactly when a and b contain the same keys with equal values, independently of insertion order, degree, hasher state and internal shape; it is reflexive, symmetric and transitive when values are Eq; the pointer short-cut never changes the answer for Eq values.", "quantifier": "all pairs (triples) of reachable maps", "why_tests_cant": "ranges over pairs of shapes with different hashers.", "anchors": ["src/map/hash_trie_map/mod.rs: PartialEq::eq, ptr_eq"]}
{"id": "C26", "title": "HashTrieSet behaves like a finite set", "statement": "After any history of insert/remove over any versions, contains, get, size, is_empty and iteration contents answer what a plain set answers; get returns the most recently inserted equal element.", "quantifier": "all element types with lawful Eq/Hash, all hash functions, all degrees >= 2, all histories", "why_tests_cant": "as C16.", "anchors": ["src/set/hash_trie_set/mod.rs: insert, remove, get, contains, size, iter"]}
{"id": "C27", "title": "HashTrieSet relations are set relations", "statement": "is_subset, is_superset, is_disjoint and == decide exactly the mathematical relations between the contents, also across different hashers and degrees.", "quantifier": "all pairs of reachable sets", "why_tests_cant": "ranges over all pairs of shapes.", "anchors": ["src/set/hash_trie_set/mod.rs: is_subset, is_superset, is_disjoint, eq"]}
{"id": "C28", "title": "Parallel iteration visits every entry exactly once under every split schedule", "statement": "However the scheduler splits the work, the concatenation of what the pieces produce is exactly what sequential iteration produces: nothing lost, nothing twice.", "quantifier": "all reachable maps, all (finite) binary trees of split decisions", "why_tests_cant": "the work-stealing schedule is nondeterministic and chosen by rayon.", "anchors": ["src/map/hash_trie_map/rayon.rs: HashTrieMapProducer::split, fold_with, from_nodes"]}
{"id": "C29", "title": "Parallel folding stops early without skipping", "statement": "If the consumer reports itself full, the items a piece has consumed form a prefix of the piece's items, and the fold of a never-full consumer consumes all of them.", "quantifier": "all pieces, all consumers (folders)", "why_tests_cant": "ranges over every stop point of every consumer.", "anchors": ["src/map/hash_trie_map/rayon.rs: fold_node_entries, fold_all_entries"]}
{"id": "C30", "title": "RedBlackTreeMap behaves like a finite ordered map", "statement": "For every lawful key order, after any history of insert, remove, get_mut and their variants over any versions, get, get_key_value, contains_key, size, is_empty, indexing and iteration answer exactly what a plain association map answers, and queries through any lawful Borrow<Q> agree.", "quantifier": "all key types with lawful Ord/Borrow, all histories over any number of versions", "why_tests_cant": "rebalancing takes many shapes; tests sample random histories only.", "anchors": ["src/map/red_black_tree_map/mod.rs: Node::insert, Node::remove, balance, remove_fuse, remove_balance_left, remove_balance_right, get"]}
{"id": "C31", "title": "RedBlackTreeMap iteration is sorted and exact", "statement": "iter() yields the entries in strictly increasing key order, each exactly once; keys()/values() agree with it; size_hint is exact at each step.", "quantifier": "all reachable maps", "why_tests_cant": "universally quantified over trees.", "anchors": ["src/map/red_black_tree_map/mod.rs: IterPtr, IterStack::dig_towards, advance"]}
{"id": "C32", "title": "RedBlackTreeMap first/last are the extreme entries", "statement": "first() is the entry with the least key and last() the one with the greatest; both are None exactly on the empty map.", "quantifier": "all reachable maps", "why_tests_cant": "universally quantified over trees.", "anchors": ["src/map/red_black_tree_map/mod.rs: Node::first, Node::last"]}
{"id": "C33", "title": "RedBlackTreeMap double-ended iteration under any interleaving", "statement": "For any interleaving of next() and next_back() on iter() the values produced are exactly those of a double-ended iteration of the sorted entries; None once the ends met and forever after.", "quantifier": "all reachable maps, all finite call sequences", "why_tests_cant": "2^n interleavings; the two stacks detect meeting by comparing keys.", "anchors": ["src/map/red_black_tree_map/mod.rs: IterPtr::next, next_back, RangeIterPtr, is_remaining_range_empty"]}
{"id": "C34", "title": "RedBlackTreeMap range yields exactly the entries within the bounds", "statement": "range(bounds) under any interleaving of next()/next_back() produces the entries whose keys satisfy both bounds, in order from the front and in reverse from the back, each once.", "quantifier": "all reachable maps, all pairs of bounds (included/excluded/unbounded) that do not panic, all call sequences", "why_tests_cant": "ranges over bounds that fall between, on and outside keys in every tree.", "anchors": ["src/map/red_black_tree_map/mod.rs: range, IterStack::new, dig_towards, clear_if_finished, advance"]}
{"id": "C35", "title": "RedBlackTreeMap range panics exactly on inverted or empty-exclusive bounds", "statement": "range panics if and only if both bounds are given and start > end, or both are excluded and start == end.", "quantifier": "all bounds", "why_tests_cant": "ranges over all bounds.", "anchors": ["src/map/red_black_tree_map/mod.rs: RedBlackTreeMap::range"]}
{"id": "C36", "title": "RedBlackTreeMap removal never panics", "statement": "The unreachable!() and unwrap() sites of insertion/removal rebalancing are unreachable and its debug assertions hold for every reachable map and every key, present or absent.", "quantifier": "all reachable maps, all keys", "why_tests_cant": "unreachability is universally quantified.", "anchors": ["src/map/red_black_tree_map/mod.rs: remove_balance_left, remove_balance_right, remove_balance, remove_fuse"]}
{"id": "C37", "title": "RedBlackTreeMap stays balanced", "statement": "After any history the tree has no red node with a red child, equal black heights and a black root; hence its height is at most 2*log2(size+1), and the iterator stack never exceeds the capacity it reserves.", "quantifier": "all histories", "why_tests_cant": "a balance bound over every history.", "anchors": ["src/map/red_black_tree_map/mod.rs: balance, remove_*, iter_utils::conservative_height"]}
{"id": "C38", "title": "RedBlackTreeMap get_mut updates one value only", "statement": "get_mut(k) is Some exactly when k is present; writing through it changes that value only.", "quantifier": "all reachable maps, all keys, all values", "why_tests_cant": "universally quantified over trees.", "anchors": ["src/map/red_black_tree_map/mod.rs: Node::get_mut, RedBlackTreeMap::get_mut"]}
{"id": "C39", "title": "RedBlackTreeMap equality, order and hash are coherent and extensional", "statement": "== is extensional equality of contents; Ord is the lexicographic order of the sorted entries, total and consistent with ==; equal maps feed the same stream to the hasher; none depends on the tree shape.", "quantifier": "all pairs of reachable maps", "why_tests_cant": "ranges over all pairs of tree shapes.", "anchors": ["src/map/red_black_tree_map/mod.rs: PartialEq, PartialOrd, Ord, Hash"]}
{"id": "C40", "title": "RedBlackTreeSet behaves like a finite ordered set", "statement": "After any history of insert/remove over any versions, contains, get, first, last, size, is_empty, iter and range answer what a plain ordered set answers.", "quantifier": "all element types with lawful Ord, all histories", "why_tests_cant": "as C30.", "anchors": ["src/set/red_black_tree_set/mod.rs: insert, remove, get, contains, first, last, iter, range"]}
{"id": "C41", "title": "RedBlackTreeSet relations are set relations", "statement": "is_subset, is_superset and is_disjoint (linear merges over sorted iterators) decide exactly the mathematical relations.", "quantifier": "all pairs of reachable sets", "why_tests_cant": "the merge loops take data dependent paths through two sequences.", "anchors": ["src/set/red_black_tree_set/mod.rs: is_subset, is_superset, is_disjoint"]}
{"id": "C42", "title": "Persistence: no operation changes any other version", "statement": "Whatever operations are applied to one handle (including the _mut ones that mutate shared nodes in place when not shared), the observable contents of every other handle are unchanged, for reference counted nodes with copy-on-write make_mut.", "quantifier": "all heaps reachable by any history of pointer operations over any number of handles sharing structure", "why_tests_cant": "in-place mutation is guarded by the reference count; the aliasing patterns reachable are unbounded.", "anchors": ["archery SharedPointer::make_mut/clone/drop as used in src/list/mod.rs, src/vector/mod.rs, src/map/hash_trie_map/mod.rs, src/map/red_black_tree_map/mod.rs", "src/utils/mod.rs: replace"]}
{"id": "C43", "title": "No leak, no use after free, no double free of shared nodes", "statement": "At any time the count of every node equals the number of references to it from handles and other nodes, every reachable node is allocated, and once all handles are dropped no node remains allocated.", "quantifier": "all histories of pointer operations", "why_tests_cant": "ranges over all sharing patterns.", "anchors": ["archery SharedPointer as used in src/list/mod.rs and all other structures"]}
{"id": "C44", "title": "Sync variants: every interleaving of threads gives each thread its sequential result", "statement": "When threads operate on their own handles (sharing nodes), for every interleaving of their pointer operations each thread observes exactly what it would observe running alone.", "quantifier": "all numbers of threads, all programs over pointer operations, all interleavings", "why_tests_cant": "thread schedules cannot be enumerated by tests.", "anchors": ["ListSync/VectorSync/...: ArcTK pointers in src/list/mod.rs, src/vector/mod.rs"]}
{"id": "C45", "title": "Dropping a list of any length does not recurse per element", "statement": "Dropping a list (and drop_first_mut, reverse_mut) frees nodes one at a time with a bounded nesting of destructor calls, whatever the length and sharing.", "quantifier": "all lengths, all sharing patterns; for Sync lists all schedules", "why_tests_cant": "stack depth as a function of unbounded length, and of the schedule. (For ListSync a race between two dropping threads breaks it; proved.)", "anchors": ["src/list/mod.rs: Drop for List"]}
{"id": "C46", "title": "Serialize then deserialize gives an equal collection", "statement": "For all eight collections, deserializing the sequence/map of items produced by serialization yields a collection equal to the original.", "quantifier": "all reachable collections", "why_tests_cant": "universally quantified round trip.", "anchors": ["src/list/mod.rs: serde", "src/queue/mod.rs: serde", "src/stack/mod.rs: serde", "src/vector/mod.rs: serde", "src/map/hash_trie_map/mod.rs: serde", "src/map/red_black_tree_map/mod.rs: serde", "src/set/hash_trie_set/mod.rs: serde", "src/set/red_black_tree_set/mod.rs: serde"]}
{"id": "C47", "title": "Deserialization propagates element errors", "statement": "If the input fails at some element the result is that error, otherwise the collection of all elements; no partial collection is returned.", "quantifier": "all input sequences with a failure at any position", "why_tests_cant": "every failure position of every input.", "anchors": ["src/list/mod.rs: ListVisitor::visit_seq", "src/vector/mod.rs: VectorVisitor", "src/map/hash_trie_map/mod.rs: HashTrieMapVisitor", "src/map/red_black_tree_map/mod.rs: RedBlackTreeMapVisitor"]}
{"id": "C48", "title": "Hashing agrees with equality and separates adjacent collections", "statement": "Equal sequences/maps/sets feed identical streams to the hasher; the stream starts with the length, so two collections hashed one after the other feed the same stream only if they are pairwise equal when elements feed injective fixed-width streams.", "quantifier": "all pairs of reachable collections", "why_tests_cant": "an injectivity claim over all contents.", "anchors": ["src/list/mod.rs: Hash", "src/queue/mod.rs: Hash", "src/vector/mod.rs: Hash", "src/map/red_black_tree_map/mod.rs: Hash", "src/set/red_black_tree_set/mod.rs: Hash"]}
{"id": "C49", "title": "Sequence order is lexicographic, total and consistent with equality", "statement": "cmp on List, Stack, Queue, Vector (and the red-black collections) is the lexicographic order of the elements; it is Equal exactly when == holds; it is antisymmetric and transitive when the element order is; partial_cmp agrees with cmp.", "quantifier": "all pairs and triples of reachable collections", "why_tests_cant": "universally quantified.", "anchors": ["src/list/mod.rs: PartialOrd, Ord", "src/queue/mod.rs: Ord", "src/vector/mod.rs: Ord"]}
{"id": "C50", "title": "Building from an iterator or macro keeps the items", "statement": "from_iter/collect and the macros produce: for List, Queue, Vector the items in order; for Stack from_iter the first item on top while stack![] has the last item on top; for maps the last value of each key; Vector::extend appends.", "quantifier": "all input sequences", "why_tests_cant": "all lengths and duplicate patterns.", "anchors": ["src/list/mod.rs: FromIterator, list!", "src/stack/mod.rs: FromIterator, stack!", "src/queue/mod.rs: FromIterator, queue!", "src/vector/mod.rs: FromIterator, Extend", "src/map/hash_trie_map/mod.rs: FromIterator", "src/map/red_black_tree_map/mod.rs: FromIterator"]}
{"id": "C51", "title": "Display prints the items in iteration order", "statement": "Display output is the opening delimiter, the items in iteration order separated by \", \" (key: value for maps) and the closing delimiter.", "quantifier": "all reachable collections", "why_tests_cant": "all lengths.", "anchors": ["src/list/mod.rs: Display", "src/queue/mod.rs: Display", "src/stack/mod.rs: Display", "src/vector/mod.rs: Display", "src/map/hash_trie_map/mod.rs: Display", "src/map/red_black_tree_map/mod.rs: Display"]}
{"id": "C52", "title": "ptr_eq implies equality of contents", "statement": "If ptr_eq answers true the two maps/sets have identical contents, size and lookups; a map is ptr_eq to its clone and to the result of removing an absent key; the short-cut in == and is_subset is therefore sound for reflexive value equality (and only then: with a non-reflexive PartialEq a map equals its clone but not a rebuilt copy).", "quantifier": "all pairs of live maps", "why_tests_cant": "ranges over all sharing histories.", "anchors": ["src/map/hash_trie_map/mod.rs: ptr_eq, eq", "src/map/red_black_tree_map/mod.rs: ptr_eq, eq", "src/set/red_black_tree_set/mod.rs: is_subset", "src/set/hash_trie_set/mod.rs: is_subset"]}
{"id": "C53", "title": "Iteration order of hash maps and sets is a function of the hashes", "statement": "Iteration visits entries by the low-order bit groups of their hashes: with degree 2^k, at the first k-bit group (from the least significant end) in which two keys' hashes differ, the key with the smaller group comes first. Hence two maps with the same hasher, degree and keys, none of whose keys collide, iterate in the same order whatever operations produced them.", "quantifier": "all reachable maps and sets, all hashers and degrees", "why_tests_cant": "the order is independent of the history; no set of histories a test runs shows that.", "anchors": ["src/map/hash_trie_map/mod.rs: IterPtr, node_utils::index_from_hash", "src/map/hash_trie_map/sparse_array_usize/mod.rs: map_index, set, remove"]}
{"id": "C54", "title": "Maps and sets survive unlawful user comparisons", "statement": "With arbitrary Ord, Eq, Hash and Borrow functions (not an order, not an equivalence, hash unrelated to equality, and even a different function in every operation) no operation of the tree and hash maps and sets panics or fails to end, size always equals the number of entries iteration yields, every operation adds, replaces or removes at most one entry and touches no other, every lookup answers with an entry the map holds, and comparisons and set relations still answer.", "quantifier": "all comparison, equality and hash functions, chosen anew for each operation; all histories", "why_tests_cant": "quantifies over all functions; the cases that violate the laws are the ones test types never implement.", "anchors": ["src/map/red_black_tree_map/mod.rs: Node::insert, remove, get, get_mut, IterPtr", "src/map/hash_trie_map/mod.rs: Node::insert, remove, get, get_mut, Bucket, bucket_utils", "src/set/red_black_tree_set/mod.rs: is_disjoint, is_subset", "src/set/hash_trie_set/mod.rs: is_disjoint, is_subset"]}
{"id": "C55", "title": "Panics in user code: what survives", "statement": "User code (Ord, Eq, Hash, Clone of keys and values) may keep state and panic at any call, and the program may catch the panic and carry on. Red-black tree maps: an operation that panics leaves the very same tree, and answers of comparisons may even change from call to call; the library itself never panics and size stays the number of entries. Hash trie maps whose inserted keys do not collide: an operation that panics leaves all pairs, the library never panics, size stays right. With collisions, panics in Hash and Clone lose nothing either; an in-place operation in which Eq panics can lose only pairs that all have the hash computed for its key, shared by several pairs of the map; that this happens, with a wrong size and a later unreachable!(), is a theorem. Red-black tree sets and hash trie sets, whose operations are operations of maps with the value (), keep and lose elements in the same way.", "quantifier": "all user code (stateful, panicking at any call), all histories", "why_tests_cant": "quantifies over every point at which a callback can panic in every state of the tree.", "anchors": ["src/map/red_black_tree_map/mod.rs: Node::insert, remove, get, get_mut", "src/map/hash_trie_map/mod.rs: Node::insert, remove, get, get_mut, Bucket, bucket_utils::list_remove_first", "src/set/red_black_tree_set/mod.rs:135-176", "src/set/hash_trie_set/mod.rs:160-201"]}
{"id": "C56", "title": "How often operations call Ord, Hash and Eq", "statement": "One operation on a red-black tree map of size n compares keys at most 2*log2(n+1) times. One operation on a hash trie map calls Hash at most once; it calls Eq only for pairs whose stored hash is that of the key: at most once for each of them (lookup, removal, get_mut), for insertions at most twice for each and once more for each level of the trie, and not at all if there is no such pair. In particular, when hashes do not collide Eq is called at most once, and never by the insertion of a new key. The bounds hold whatever the functions answer, and when they panic.", "quantifier": "all reachable maps, all operations, all user code (stateful, unlawful or panicking)", "why_tests_cant": "complexity claims of the documentation; tests measure results, and benchmarks sample a few sizes.", "anchors": ["src/map/red_black_tree_map/mod.rs: Node::insert, remove, get, get_mut", "src/map/hash_trie_map/mod.rs: Node::insert, remove, get, get_mut, Bucket, EntryWithHash::matches"]}
{"id": "C57", "title": "Complexity tables of the documentation", "statement": "On the reference counted heap, one operation touches (allocates, reads, overwrites, unwraps, releases) at most so many memory cells and copies at most so many pointers beyond those of the cells it copies: a constant for List, Stack and Queue, except reverse, iteration, dropping and a dequeue of a queue whose out-list is empty, which are linear; a constant for each of the log(n) levels of a Vector; O(log n) for a red-black tree map or set; a constant for a hash trie map or set, where a collision leaf counts as often as it has entries. A chain of n queue operations, each on the version the previous one made, touches at most 8n cells.", "quantifier": "all clients and histories, all sizes, any sharing, any number of threads; the amortised bound: all chains of operations", "why_tests_cant": "asymptotic statements about every size and every pattern of sharing; benchmarks sample a few, and sharing decides which cells are copied.", "anchors": ["src/list/mod.rs:87-101", "src/stack/mod.rs:73-85", "src/queue/mod.rs:77-90", "src/vector/mod.rs:74-87", "src/map/hash_trie_map/mod.rs:93-106", "src/map/red_black_tree_map/mod.rs:81-94", "src/set/red_black_tree_set/mod.rs:75-88", "src/set/hash_trie_set/mod.rs:74-87"]}
{"id": "C58", "title": "Versions share their memory", "statement": "On the reference counted heap, whatever versions of a structure a client holds, one more operation adds at most so many cells to the memory in use: none for a clone, a read or dropping; two for pushing on a List or Stack or enqueueing; one for each element for reversing (or a dequeue that reverses); one path (log2(n)/bits + 3) for a new version of a Vector; O(log n) for a new version of a red-black tree map or set; for a hash trie map or set one path, whose length depends only on the degree, and the list of colliding entries on it (so O(1) where at most a fixed number of keys share a hash), independently of how much they hold otherwise. So all the versions together that a client gets by n commands take O(n) (List, Stack, hash tries with boundedly many keys per hash) or O(n log n) cells (Vector, red-black trees), not the sum of their sizes.", "quantifier": "all clients and histories, all allocators, all sizes, any sharing", "why_tests_cant": "the tests look at values; that a version shares its subtrees instead of copying them, for every size and every history, is not observable by results.", "anchors": ["src/list/mod.rs:87-101", "src/stack/mod.rs:73-85", "src/queue/mod.rs:77-90", "src/vector/mod.rs:74-87", "src/map/red_black_tree_map/mod.rs:81-94", "src/set/red_black_tree_set/mod.rs:75-88", "src/map/hash_trie_map/mod.rs:93-106", "src/set/hash_trie_set/mod.rs:74-87"]}
{"id": "C59", "title": "Versions shared by threads through references", "statement": "A Sync structure can be read by several threads at once through &: lend some versions to any number of threads, which use them only in operations that take &self (reads, iteration, clone, the persistent variants that make new versions) while also running anything on versions of their own. Under every interleaving of the atomic steps no thread faults or frees shared memory, the lent versions stay as they are cell by cell, every thread gets the answers it would get alone, and in the end the reference counts are exactly right.", "quantifier": "all structures, all lent versions, all numbers of threads and programs, all interleavings, all allocators", "why_tests_cant": "the tests only check that the types are Send and Sync; a count updated non-atomically, or a persistent operation that mutates a node because it believes to be its only owner, shows up under few interleavings.", "anchors": ["src/list/mod.rs:135", "src/stack/mod.rs:98", "src/queue/mod.rs:105", "src/vector/mod.rs:104", "src/map/hash_trie_map/mod.rs:127", "src/map/red_black_tree_map/mod.rs:111", "src/set/hash_trie_set/mod.rs:102", "src/set/red_black_tree_set/mod.rs:102"]}
{"id": "C60", "title": "Dropping trees does not exhaust the stack", "statement": "Vector, RedBlackTreeMap/Set and HashTrieMap/Set have no Drop of their own: releasing a last handle releases the nodes recursively, one destructor inside the other. However versions are made, shared and dropped, by one thread or by several under any interleaving, that nesting is never deeper than log2(len+1)+1 for vectors, 2*log2(size+1) for red-black trees, and, for hash tries of degree 2^k, 63/k+4 when one thread runs and 63/k+3 plus the largest number of keys with the same hash when several do, where len and size are those of the largest version the client ever has. Freeing the list in a collision leaf by the loop of Drop for List or by recursion makes no difference to memory and results.", "quantifier": "all clients, histories, sizes, sharing, allocators, numbers of threads and interleavings; all valid bits and degrees of at least 2", "why_tests_cant": "tests drop structures that are small or balanced by luck; a stack overflow needs a structure that is deep at one path, which only an invariant over all histories excludes.", "anchors": ["src/vector/mod.rs:94-113", "src/map/red_black_tree_map/mod.rs:102-129", "src/map/hash_trie_map/mod.rs:183-209", "src/set/red_black_tree_set/mod.rs:95-102", "src/set/hash_trie_set/mod.rs:95-102", "src/list/mod.rs:403-425"]}
{"id": "C61", "title": "Parallel work divides until one hash is left", "statement": "However a parallel iteration has been split so far, splitting a piece again either gives two pieces that both have items, or leaves the piece as it is, and then all its keys have the same hash. Keys with the same hash are never separated. There are never more pieces than items (but at least one piece), and after 63 + log2(degree) rounds of splitting every piece nothing can be split any more, so a scheduler cannot split forever.", "quantifier": "all reachable maps, all (finite) trees of split decisions, all degrees and word sizes", "why_tests_cant": "the tests count items; an empty piece, a piece that pretends to be indivisible or a split that makes no progress gives the right items but no parallelism or endless work, on some shapes of the trie only.", "anchors": ["src/map/hash_trie_map/rayon.rs:77-96", "src/map/hash_trie_map/rayon.rs:167-175"]}
{"id": "C62", "title": "Iterators see a snapshot", "statement": "A client can keep any number of iterators while it goes on working: making new versions of the iterated structure, and changing or dropping any other handle, in place or not, even when it shares all its nodes with the iterated one. The iterator reads the nodes only when it is asked for an item. Every iterator gives exactly the items that its structure had when the iterator was started, in order (from both ends where next_back exists), and its size_hint is what is left; no freed or half changed node is ever read; afterwards memory holds exactly what the handles keep alive. The same holds for threads that iterate at once over structures they share and change their own versions, under every interleaving.", "quantifier": "all clients, histories, sharing, numbers of iterators, ranges, allocators, numbers of threads and interleavings", "why_tests_cant": "a wrong in-place update of a shared node shows only when an iterator (or a thread) is in the middle of that node at that moment; tests iterate over structures that nobody changes meanwhile.", "anchors": ["src/list/mod.rs:260-270", "src/list/mod.rs:424-463", "src/queue/mod.rs:182-188", "src/vector/mod.rs:478-482", "src/vector/mod.rs:649-850", "src/map/red_black_tree_map/mod.rs:927-966", "src/map/red_black_tree_map/mod.rs:1129-1485", "src/map/hash_trie_map/mod.rs:875-880", "src/map/hash_trie_map/mod.rs:1042-1139", "src/set/red_black_tree_set/mod.rs:267-290", "src/set/hash_trie_set/mod.rs:246-250"]}
{"id": "C63", "title": "Cost of iteration", "statement": "As the tables in the documentation say: starting an iterator takes constant time; a step of a List, Stack, HashTrieMap or HashTrieSet iterator takes constant time in the worst case; a step of a Queue iterator takes constant time but for one that is linear; a step of a Vector or RedBlackTreeMap/Set iterator (from either end, calls of next and next_back in any order, also over ranges) is amortised constant and logarithmic at worst; so a full iteration is linear. Precisely: any m calls in a row, wherever in the iteration they are, touch at most c + c1*m memory cells, where c1 is a constant, and c is 0 for lists, stacks and hash tries, the number of items for queues, and a multiple of the logarithm of the number of items for vectors and trees. This holds also when iterators run interleaved with other operations on structures that share nodes, and in several threads.", "quantifier": "all clients, histories, sharing, contents, calls from both ends, windows of calls, ranges, allocators, threads and interleavings", "why_tests_cant": "tests do not measure time; an iterator that walked down from the root for each item, or scanned from the start, would pass them all.", "anchors": ["src/list/mod.rs:99-101", "src/stack/mod.rs:83-85", "src/queue/mod.rs:88-90", "src/vector/mod.rs:85-87", "src/vector/mod.rs:649-850", "src/map/red_black_tree_map/mod.rs:92-94", "src/map/red_black_tree_map/mod.rs:1129-1485", "src/map/hash_trie_map/mod.rs:104-106", "src/map/hash_trie_map/mod.rs:1042-1139", "src/set/hash_trie_set/mod.rs:85-87", "src/set/red_black_tree_set/mod.rs:86-88"]}
{"id": "C64", "title": "Capacity hints", "statement": "Collecting an iterator into a List, Stack or Queue, or deserializing one, reserves room for the announced number of items first (the upper bound of size_hint if there is one, else the lower; the size hint of the input). The result never depends on what is announced, but whether it works does: for an iterator that keeps to its size hint, collecting works exactly if room for the upper bound can be had, even if there are few items or none, and panics with a capacity overflow if the upper bound times the size of an item exceeds isize::MAX bytes; a sequence without elements that claims to be long cannot be deserialized. Elements without size never fail. What each of the eight collections announces when serialized is exactly the number of items it emits, so a serialized list can be read back wherever its items fit.", "quantifier": "all items, honest size hints, claimed lengths, element sizes, word sizes, amounts of memory, and sequences with errors", "why_tests_cant": "tests collect from vectors and ranges, whose hints are exact; the failures need an iterator with a huge upper bound (such as a filter over a range) or a hostile input.", "anchors": ["src/list/mod.rs:383-400", "src/list/mod.rs:478-531", "src/stack/mod.rs:260-267", "src/queue/mod.rs:289-296"]}
{"id": "C65", "title": "Depth of Debug", "statement": "All collections derive Debug, which calls fmt of each node inside fmt of its parent. For a List of n items whose own fmt takes constant depth the calls nest exactly 2n+2 deep (2n+3 for a Stack, between n+3 and 2n+3 for a Queue), so for any stack there are lists, stacks and queues that cannot be printed with {:?}, although they can be built, iterated and dropped. For a Vector the depth is at most 2*log(n)/bits + constant, for red-black trees 4*log(n+1) + constant, for hash tries 3 per level plus twice the largest number of keys with equal hashes. What is printed shows the nodes, so equal queues, vectors and trees may print differently.", "quantifier": "all collections a program can build, all element types with fmt of bounded depth, all limits of the stack", "why_tests_cant": "tests print small collections, if any; the depth shows only by overflowing the stack.", "anchors": ["src/list/mod.rs:107-124", "src/stack/mod.rs:90-96", "src/queue/mod.rs:96-103", "src/vector/mod.rs:94-113", "src/map/red_black_tree_map/mod.rs:102-128", "src/map/hash_trie_map/mod.rs:116-208", "src/map/hash_trie_map/sparse_array_usize/mod.rs:7-11", "src/set/red_black_tree_set/mod.rs:93-100", "src/set/hash_trie_set/mod.rs:92-99"]}
{"id": "C66", "title": "Mutating methods work in place", "statement": "A program that only reads its collections and changes them with the _mut methods (also get_mut, extend, and List::reverse) never pays for persistence: every test whether a pointer is the only one to its node succeeds, no node is ever copied, and the methods allocate only what they add. push_front_mut, push_mut, enqueue_mut and insert_mut of red-black trees allocate two cells, push_back_mut of vectors an element and at most one node per level, and insert_mut of hash tries at most 67; removing, replacing the value behind get_mut, reversing in place and moving a queue's in-list to its out-list allocate nothing. One clone or persistent operation is enough to lose this. For hash tries this is shown up to the moment when two entries with equal hashes are stored.", "quantifier": "all sequential programs over any number of collections, all allocators, keys, hashers, degrees and bits", "why_tests_cant": "whether make_mut copies is invisible to results, and tests do not count allocations.", "anchors": ["src/list/mod.rs:226-251", "src/list/mod.rs:405-422", "src/queue/mod.rs:142-160", "src/vector/mod.rs:135-240", "src/vector/mod.rs:340-510", "src/map/red_black_tree_map/mod.rs:265-400", "src/map/red_black_tree_map/mod.rs:440-720", "src/map/hash_trie_map/mod.rs:275-460", "src/map/hash_trie_map/mod.rs:785-915"]}
{"id": "C67", "title": "Formatters and serializers that fail", "statement": "Displaying a collection makes exactly these calls, in this order: the opening delimiter, each item in the order of iteration (for maps the key, ': ' and the value) with one ', ' between any two, and the closing delimiter. Serializing makes exactly these: the announcement of the exact number of items, each item in order, and the end. The first call that returns an error is the last one made and its error is what the caller gets; a panic in an item's own formatting passes through; the collection adds no errors or panics of its own, and passes the formatter with its flags to the items while the delimiters ignore them. If the sink takes text, then what it has taken is all of the text or a beginning of it, and all of it if there was no error.", "quantifier": "all reachable collections, all formatters and serializers (any state, failing at any call), all behaviours of the items' own Display and Serialize", "why_tests_cant": "tests display into a String, which never fails, and without flags.", "anchors": ["src/list/mod.rs:347-366", "src/list/mod.rs:478-480", "src/stack/mod.rs:227-246", "src/queue/mod.rs:256-275", "src/queue/mod.rs:377-379", "src/vector/mod.rs:594-613", "src/vector/mod.rs:865-867", "src/map/hash_trie_map/mod.rs:980-1004", "src/map/hash_trie_map/mod.rs:1159-1161", "src/map/red_black_tree_map/mod.rs:1079-1102", "src/map/red_black_tree_map/mod.rs:1500-1502", "src/set/hash_trie_set/mod.rs:293-314", "src/set/hash_trie_set/mod.rs:361-363", "src/set/red_black_tree_set/mod.rs:354-374", "src/set/red_black_tree_set/mod.rs:419-421"]}
{"id": "C68", "title": "Comparisons made by iterators, equality, ordering and set algebra", "statement": "With n the size of a red-black tree: creating a range iterator compares bounds at most twice and looks at no key; k calls of it at one end make at most 2*log2(n+1)+1+k comparisons, at both ends at most twice (2*log2(n+1)+1) plus 2k. Iterators over the whole tree compare nothing when used from one end, and at most once per call, until exhausted, when used from both. == compares keys at most 2*log2(n+1) times and values at most once per pair, cmp and partial_cmp (also with incomparable values) compare keys and values at most once per pair of the smaller map, and the same holds for the elements of sets; is_disjoint makes at most |s|+|t|-1 comparisons, is_subset at most one per element of the other set, and == and is_subset none at all when addresses or sizes decide. For hash trie maps and sets ==, is_disjoint, is_subset and is_superset hash each element of the collection they iterate at most once, and compare it by Eq with at most as many elements of the other as share one hash. Whatever user code answers, the library does not panic on its own.", "quantifier": "all reachable collections, all bounds, all sequences of calls at both ends, all user code for Ord, Eq and Hash (stateful, self-contradicting, panicking at any call)", "why_tests_cant": "tests do not count calls, and use comparisons that are consistent; the bounds concern every answer at every call.", "anchors": ["src/map/red_black_tree_map/mod.rs:944-966", "src/map/red_black_tree_map/mod.rs:1027-1033", "src/map/red_black_tree_map/mod.rs:1058-1060", "src/map/red_black_tree_map/mod.rs:1163-1292", "src/map/red_black_tree_map/mod.rs:1335-1361", "src/map/red_black_tree_map/mod.rs:1387-1483", "src/set/red_black_tree_set/mod.rs:189-253", "src/map/hash_trie_map/mod.rs:250-272", "src/map/hash_trie_map/mod.rs:963-969", "src/set/hash_trie_set/mod.rs:204-231"]}
{"id": "C69", "title": "Canonical form: structure is a function of contents", "statement": "Two lists (stacks) with the same items are the same, node for node; so are two vectors with the same items and bits, whatever pushes, drops and writes produced them. The trie of a hash map is the one that the hashes of its keys determine (a bucket for a single hash, otherwise a branch that divides the hashes by their next bits, buckets of equal hashes when the bits are used up), so two maps or sets with the same hasher, degree and keys have the same trie up to the entries in buckets, collisions included. The exception is a map with exactly one pair, whose root may be the bucket (when a removal left it) or a branch. Queues and red-black trees have no canonical form.", "quantifier": "all reachable lists, vectors, hash maps and sets, all histories, all degrees and bits, all hash functions, both build modes", "why_tests_cant": "a test compares a few histories; a removal that forgets to collapse a node leaves the right answers and a wrong shape.", "anchors": ["src/list/mod.rs:96-110", "src/vector/mod.rs:197-240", "src/vector/mod.rs:424-460", "src/map/hash_trie_map/mod.rs:299-357", "src/map/hash_trie_map/mod.rs:359-433"]}
{"id": "C70", "title": "Memory follows the contents", "statement": "Whatever a client did with any number of handles, and once several threads, with handles of their own and with handles lent to all of them through &, have finished, the number of heap cells in use is at most the sum, over the handles that are still alive, of a bound that depends only on what each of them holds now: 2n + 1 for a list or stack of n elements, 2n + 2 for a queue (0 when empty), n + n/(2^bits - 1) + log2(n)/bits + 1 for a vector, 2n for a red-black map or set of n entries, and n(63/log2(degree) + 9)/2 + 1 for a hash map or set. Nothing is left over from elements, levels or branches that were there before.", "quantifier": "all command sequences, all values and numbers of handles, all allocators, all schedules of any number of threads, all bits and degrees, all hash functions", "why_tests_cant": "needs all histories of growing and shrinking, with sharing; a removal that forgets to release or to collapse a node gives the right answers and only costs memory.", "anchors": ["src/list/mod.rs:177-188", "src/vector/mod.rs:197-240", "src/vector/mod.rs:439-464", "src/map/hash_trie_map/mod.rs:299-433", "src/map/red_black_tree_map/mod.rs:433-756", "src/queue/mod.rs:136-152"]}
{"id": "C71", "title": "Sources of items are called one at a time", "statement": "The source that from_iter, extend and deserialization consume is code with a state: each call gives an item, ends, fails with an error or panics. A collection is built by calling it until it first stops and never again after that. If it ends, the result is the collection of exactly the items it gave; if it fails or panics, no collection comes out and the failure is handed on; if it never stops, building never ends (vectors: as long as they have not reached their capacity). Vector::extend in place leaves the vector extended by exactly the items given before the source stopped, whatever stopped it. Vector::get_mut calls Clone at most once, for the element at the index and only if that element is shared; if Clone panics the vector is as before, node for node, and otherwise it holds what was made of the value that Clone gave, even if that is not equal to the original.", "quantifier": "all sources (any state, any point of stopping), all collections; vectors and indices; all Clone functions with a state that may panic; Ord, Eq and Hash lawful", "why_tests_cant": "needs every source and every point at which it can stop, including sources that give more items when they are called again after the end.", "anchors": ["src/list/mod.rs: FromIterator", "src/vector/mod.rs: Extend, FromIterator, get_mut, make_mut", "src/map/hash_trie_map/mod.rs: FromIterator", "src/map/red_black_tree_map/mod.rs: FromIterator", "src/*/mod.rs: serde Visitor::visit_seq and visit_map"]}
{"id": "C72", "title": "Counters cannot overflow", "statement": "The number of elements that a list, stack, queue, map or set keeps in its handle (for a queue: in each of its two lists, whose sum is its length) is at most the number of heap cells in use at that time, and so is the length kept in each collision leaf of a hash trie; every reference count is at most the number of pointers in the handles that are alive and in the cells in use. As every cell and every pointer takes memory, none of these usize counters can reach 2^W, nor a reference count its limit, so that the unchecked increments (which wrap in release builds, and panic or abort otherwise) are exact.", "quantifier": "all command sequences of clients, all values and numbers of handles, all allocators, all schedules of any number of threads with handles of their own and handles lent to all of them, all degrees, all hash functions", "why_tests_cant": "overflow needs more elements than any test can make; the question is whether sharing could make a count larger than the memory that is really used, over all histories.", "anchors": ["src/list/mod.rs:177-212", "src/queue/mod.rs:98-104", "src/queue/mod.rs:172-174", "src/map/hash_trie_map/mod.rs:794-835", "src/map/red_black_tree_map/mod.rs:848-887", "src/map/hash_trie_map/mod.rs:559-640"]}
{"id": "C73", "title": "Memory stays sound whatever user code does", "statement": "Ord, Eq, Hash and Clone of keys and values may keep state, answer differently at each call, break every law and panic at any call, and the program may catch the panic and go on using all its maps, sets and vectors. In hash trie maps and sets also the Drop of a pair that is removed or replaced may panic, at any call. So may, at its end, the Drop of what insert_mut of a red-black tree map or set replaces; the replacement is then made. Then still: no operation on a red-black tree map or set reaches a panic of the library, one on a hash trie map or set may do so (unreachable!, expect, debug_assert!, overflow of size) and unwinds like a panic of user code; every reference count is the number of pointers to the cell, nothing is used after it was freed, freed twice or leaked, and when all handles are dropped memory is empty; an operation on one handle, also one that panics, leaves all others alone; threads with handles of their own, or with handles lent to them, do not notice each other in any interleaving, also with the memory orderings of Arc (C76); and the memory in use is bounded by the nodes that the maps alive consist of (for red-black trees two cells for each entry counted by size). The same holds of Vector, where user code is the Clone of elements in get_mut and index_mut and the iterator given to extend; a panic of Clone leaves its contents as they were, and after a panic in the Drop of an element that is replaced in place the new one is there. And of List, Stack and Queue, where user code is the Drop of the element that an operation removes, which comes last: after its panic the operation is finished, and a version it made is dropped.", "quantifier": "all user code (each operation brings its own, with state), all command sequences of clients, all values and numbers of handles, all allocators, all schedules of any number of threads, all degrees that constructors accept but one, both build modes", "why_tests_cant": "quantifies over every function that safe user code can be, every point at which it can panic in every shape of the tree with every pattern of sharing, and every interleaving of threads.", "anchors": ["src/map/red_black_tree_map/mod.rs:373-427", "src/map/red_black_tree_map/mod.rs:711-778", "src/map/red_black_tree_map/mod.rs:848-887", "src/map/hash_trie_map/mod.rs:180-460", "src/map/hash_trie_map/mod.rs:559-700", "src/map/hash_trie_map/mod.rs:794-870", "src/set/red_black_tree_set/mod.rs:135-176", "src/set/hash_trie_set/mod.rs:160-201", "src/vector/mod.rs:222-239", "src/vector/mod.rs:495-507", "src/vector/mod.rs:642-646", "src/list/mod.rs:177-188", "src/stack/mod.rs:135-137", "src/queue/mod.rs:142-155", "src/vector/mod.rs:139-173"]}
{"id": "C74", "title": "What is left when the Drop of a removed element panics", "statement": "An operation in place removes or replaces one element, key or value whose Drop panics; the program catches the panic and goes on. Vector::drop_last_mut: the length stays, every other index answers as before, reading the last index panics, and set_mut of the last index makes the vector right again. HashTrieMap::remove_mut (and sets): exactly the removed pair is gone, size stays too large by one, iteration gives the other pairs, all of which are found, and keys with another hash answer as before. HashTrieMap::insert_mut that replaces a pair: it is finished, or, only when another key has the same hash, the old pair is gone and the new one is not inserted. RedBlackTreeMap::remove_mut (and sets): size stays, the pairs outside the subtree of the removed node stay, in it at most four pairs survive (all if it has at most one child); for every non-empty map there is a key for which at most four pairs are left of the whole map. List::drop_first_mut, Stack::pop_mut, Queue::dequeue_mut, Vector::set_mut and RedBlackTreeMap::insert_mut that replaces a pair (and sets) have done what they do without the panic. Later operations on what is left can panic inside the library (unreachable!, expect, index out of bounds) or, for vectors in release builds, answer wrongly.", "quantifier": "all lists and stacks, all reachable queues, vectors, maps and sets, all keys and indices, all lawful Ord, Eq and Hash, all hash functions, degrees and bits, both build modes and all word sizes", "why_tests_cant": "unwinding out of the middle of an in-place removal is never exercised by tests, and what survives depends on the shape of the whole subtree below the removed node.", "anchors": ["src/vector/mod.rs:197-215", "src/vector/mod.rs:445-464", "src/map/red_black_tree_map/mod.rs:433-545", "src/map/red_black_tree_map/mod.rs:711-749", "src/map/red_black_tree_map/mod.rs:872-887", "src/map/hash_trie_map/mod.rs:559-640", "src/map/hash_trie_map/mod.rs:794-835", "src/list/mod.rs:177-188", "src/queue/mod.rs:142-155", "src/vector/mod.rs:139-173", "src/map/red_black_tree_map/mod.rs:373-427"]}
{"id": "C75", "title": "Drop of a List with an element that panics", "statement": "Dropping a list that is the only owner of its nodes does not nest node drops and finishes if no element panics. If exactly one panics, the loop is unwound and the elements after it are dropped by nested calls, one for each of them, so the nesting is not bounded; if a second one panics the process aborts.", "quantifier": "all lists, all sets of elements that panic", "why_tests_cant": "the iterative Drop exists to avoid deep recursion; that unwinding goes around it shows only for long lists with an element that panics early.", "anchors": ["src/list/mod.rs:404-421"]}
{"id": "C76", "title": "The memory orderings of Arc are enough", "statement": "Threads share versions and work on their own as in C59 and C62, but the reference counts have the orderings of Arc: increments are Relaxed, decrements Release, only a successful uniqueness test (make_mut, try_unwrap) and the last decrement Acquire, and a uniqueness test may read an old value of the count (any that is not overwritten by a change its thread has already seen). In every such execution: no data race (of two accesses to a node, element or entry, one of which writes, moves or frees it, the earlier happens before the later); no uniqueness test takes an old count of one for the present one; no fault; lent versions stay as they are; every thread gets the answers it would get alone, although a test may fail for a pointer that is unique by now; in the end memory is exactly what the handles keep alive; every thread that is scheduled again and again finishes.", "quantifier": "all structures, all clients, lent versions, iterators, numbers of threads, all executions of the weak semantics, all allocators", "why_tests_cant": "tests run on the hardware at hand, mostly with stronger ordering than the language promises, and never reach most schedules; a missing Acquire or Release shows as a rare race between the last read of one thread and the write in place of another.", "anchors": ["src/list/mod.rs:135", "src/list/mod.rs:226-254", "src/list/mod.rs:404-421", "src/vector/mod.rs:104", "src/map/hash_trie_map/mod.rs:127", "src/map/red_black_tree_map/mod.rs:111", "Cargo.toml:34"]}
{"id": "C77", "title": "Which collections are Send and Sync", "statement": "A collection with ArcTK (the Sync variants) is Send exactly if it is Sync, namely if the types of its elements, or keys and values, are both Send and Sync; for hash maps and sets the hasher must have the trait in question as well. The same holds of their iterators, which do not ask for the hasher, and of ranges, which ask also for the bounds and the type that keys are borrowed as. Under the bounds stated for parallel iteration the parallel iterator, the producers it is divided into and its items are Send. Collections with RcK (the default) and their iterators are never Send or Sync.", "quantifier": "all element, key, value, hasher and bound types (arbitrary, with any combination of the two traits, and collections nested in each other to any depth)", "why_tests_cant": "the tests of the project assert the traits for i32 only; that types without them are rejected can only be tested one type at a time, by programs that must not compile.", "anchors": ["src/list/mod.rs:107-124", "src/list/mod.rs:423-430", "src/stack/mod.rs:90-96", "src/queue/mod.rs:11-13", "src/queue/mod.rs:96-103", "src/queue/mod.rs:298-304", "src/vector/mod.rs:94-113", "src/vector/mod.rs:649-668", "src/map/entry.rs:2-5", "src/map/hash_trie_map/mod.rs:116-208", "src/map/hash_trie_map/mod.rs:1039-1058", "src/map/hash_trie_map/rayon.rs:11-71", "src/map/red_black_tree_map/mod.rs:102-128", "src/map/red_black_tree_map/mod.rs:1145-1156", "src/map/red_black_tree_map/mod.rs:1307-1379", "src/set/hash_trie_set/mod.rs:92-100", "src/set/red_black_tree_set/mod.rs:93-100"]}
