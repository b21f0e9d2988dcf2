{
 "claims": [
  {
   "property": "C01",
   "status": "proved",
   "theorems": [
    "Rpds.Props.C01_list_refines_sequence",
    "Rpds.Props.C01_list_observers_agree"
   ],
   "note": ""
  },
  {
   "property": "C02",
   "status": "proved",
   "theorems": [
    "Rpds.Props.C02_list_reverse"
   ],
   "note": ""
  },
  {
   "property": "C03",
   "status": "proved",
   "theorems": [
    "Rpds.Props.C03_list_iter_exact"
   ],
   "note": ""
  },
  {
   "property": "C04",
   "status": "proved",
   "theorems": [
    "Rpds.Props.C04_stack_lifo"
   ],
   "note": ""
  },
  {
   "property": "C05",
   "status": "proved",
   "theorems": [
    "Rpds.Props.C05_queue_fifo"
   ],
   "note": ""
  },
  {
   "property": "C06",
   "status": "proved",
   "theorems": [
    "Rpds.Props.C06_queue_observers_ignore_split",
    "Rpds.Props.C06_queue_iter_exact"
   ],
   "note": ""
  },
  {
   "property": "C07",
   "status": "proved",
   "theorems": [
    "Rpds.Props.C07_queue_amortized",
    "Rpds.Props.C07_queue_reused_version_pays_again"
   ],
   "note": ""
  },
  {
   "property": "C08",
   "status": "proved",
   "theorems": [
    "Rpds.Props.C08_vector_refines_sequence"
   ],
   "note": "Both build modes, every word size, every bits below the word size, versions of different bits in one history."
  },
  {
   "property": "C09",
   "status": "proved",
   "theorems": [
    "Rpds.Props.C09_vector_bounds"
   ],
   "note": ""
  },
  {
   "property": "C10",
   "status": "proved",
   "theorems": [
    "Rpds.Props.C10_vector_update_local"
   ],
   "note": ""
  },
  {
   "property": "C11",
   "status": "proved",
   "theorems": [
    "Rpds.Props.C11_vector_iter_double_ended"
   ],
   "note": ""
  },
  {
   "property": "C12",
   "status": "proved",
   "theorems": [
    "Rpds.Props.C12_vector_no_panic",
    "Rpds.Props.C12_vector_capacity",
    "Rpds.Props.C12_vector_capacity_exact",
    "Rpds.Props.C12_vector_release_wraps"
   ],
   "note": "Both limits are shown to be exact: one more push panics in debug builds and wraps the length to zero in release builds."
  },
  {
   "property": "C13",
   "status": "partial",
   "theorems": [
    "Rpds.Props.C13_vector_bits_validated_partial",
    "Rpds.Props.C13_vector_bad_bits_debug",
    "Rpds.Props.C13_vector_bad_bits_release",
    "Rpds.Props.C13_vector_bad_bits_release_capacity",
    "Rpds.Props.C13_vector_bad_bits_release_loses"
   ],
   "note": "The property is false of the code: bits >= usize::BITS is accepted. The partial theorem covers bits < usize::BITS. The others prove the violation for every larger bits: debug builds panic at the first push, release builds work up to 2^(bits mod usize::BITS) items and lose one with the next."
  },
  {
   "property": "C14",
   "status": "proved",
   "theorems": [
    "Rpds.Props.C14_vector_depth"
   ],
   "note": ""
  },
  {
   "property": "C15",
   "status": "proved",
   "theorems": [
    "Rpds.Props.C15_vector_comparisons_ignore_bits",
    "Rpds.Props.C15_vector_eq_ord_hash_agree"
   ],
   "note": ""
  },
  {
   "property": "C16",
   "status": "proved",
   "theorems": [
    "Rpds.Props.C16_hash_map_refines_finite_map"
   ],
   "note": "All lawful key types, all 64-bit hash functions, degrees 2..word size, word sizes 16/32/64, both build modes."
  },
  {
   "property": "C17",
   "status": "proved",
   "theorems": [
    "Rpds.Props.C17_hash_map_size"
   ],
   "note": ""
  },
  {
   "property": "C18",
   "status": "proved",
   "theorems": [
    "Rpds.Props.C18_hash_map_iteration"
   ],
   "note": ""
  },
  {
   "property": "C19",
   "status": "proved",
   "theorems": [
    "Rpds.Props.C19_hash_map_no_panic",
    "Rpds.Props.C19_hash_map_constructors"
   ],
   "note": ""
  },
  {
   "property": "C20",
   "status": "proved",
   "theorems": [
    "Rpds.Props.C20_hash_map_get_mut_local"
   ],
   "note": ""
  },
  {
   "property": "C21",
   "status": "proved",
   "theorems": [
    "Rpds.Props.C21_hash_map_remove",
    "Rpds.Props.C52_hash_map_ptr_eq_kept"
   ],
   "note": "The second theorem is the part about sharing the root, on the heap."
  },
  {
   "property": "C23",
   "status": "partial",
   "theorems": [
    "Rpds.Props.C23_hash_degree_validated_partial",
    "Rpds.Props.C23_hash_degree_one_diverges",
    "Rpds.Props.C23_hash_degree_one_exact"
   ],
   "note": "The property is false of the code: degree 1 is accepted and inserting a second key then never terminates (second theorem). The partial theorem covers every other degree. The third theorem says exactly what maps of degree 1 do: every history works as on finite maps up to the first insertion of a second distinct key, which never ends."
  },
  {
   "property": "C24",
   "status": "proved",
   "theorems": [
    "Rpds.Props.C24_hash_map_shape"
   ],
   "note": ""
  },
  {
   "property": "C25",
   "status": "proved",
   "theorems": [
    "Rpds.Props.C25_hash_map_eq_extensional",
    "Rpds.Props.C25_hash_map_eq_equivalence"
   ],
   "note": ""
  },
  {
   "property": "C26",
   "status": "proved",
   "theorems": [
    "Rpds.Props.C26_hash_set_refines_finite_set",
    "Rpds.Props.C26_hash_set_get_latest"
   ],
   "note": ""
  },
  {
   "property": "C27",
   "status": "proved",
   "theorems": [
    "Rpds.Props.C27_hash_set_relations",
    "Rpds.Props.C27_hash_set_eq"
   ],
   "note": ""
  },
  {
   "property": "C28",
   "status": "proved",
   "theorems": [
    "Rpds.Props.C28_parallel_iteration_complete"
   ],
   "note": "The scheduler is an arbitrary finite tree of split decisions; rayon itself is not modelled."
  },
  {
   "property": "C29",
   "status": "proved",
   "theorems": [
    "Rpds.Props.C29_parallel_fold_prefix",
    "Rpds.Props.C29_parallel_fold_exact"
   ],
   "note": "Consumers must stay full once full (rayon's contract); stated as a hypothesis."
  },
  {
   "property": "C22",
   "status": "proved",
   "theorems": [
    "Rpds.Props.C22_hash_map_insert_replaces",
    "Rpds.Props.C22_rb_map_insert_replaces"
   ],
   "note": ""
  },
  {
   "property": "C30",
   "status": "proved",
   "theorems": [
    "Rpds.Props.C30_rb_map_refines_finite_map",
    "Rpds.Props.C30_rb_map_borrow"
   ],
   "note": "Statements about iterators assume size + 1 < 2^W (the machine word), which any map in memory satisfies."
  },
  {
   "property": "C31",
   "status": "proved",
   "theorems": [
    "Rpds.Props.C31_rb_map_iteration"
   ],
   "note": "Statements about iterators assume size + 1 < 2^W (the machine word), which any map in memory satisfies."
  },
  {
   "property": "C32",
   "status": "proved",
   "theorems": [
    "Rpds.Props.C32_rb_map_first_last"
   ],
   "note": ""
  },
  {
   "property": "C33",
   "status": "proved",
   "theorems": [
    "Rpds.Props.C33_rb_map_double_ended"
   ],
   "note": "Statements about iterators assume size + 1 < 2^W (the machine word), which any map in memory satisfies."
  },
  {
   "property": "C34",
   "status": "proved",
   "theorems": [
    "Rpds.Props.C34_rb_map_range"
   ],
   "note": "Statements about iterators assume size + 1 < 2^W (the machine word), which any map in memory satisfies."
  },
  {
   "property": "C35",
   "status": "proved",
   "theorems": [
    "Rpds.Props.C35_rb_map_range_panics"
   ],
   "note": ""
  },
  {
   "property": "C36",
   "status": "proved",
   "theorems": [
    "Rpds.Props.C36_rb_map_no_panic",
    "Rpds.Props.C36_rb_map_constructors"
   ],
   "note": "Statements about iterators assume size + 1 < 2^W (the machine word), which any map in memory satisfies."
  },
  {
   "property": "C37",
   "status": "proved",
   "theorems": [
    "Rpds.Props.C37_rb_map_balanced",
    "Rpds.Props.C37_rb_iter_stack_capacity"
   ],
   "note": "Statements about iterators assume size + 1 < 2^W (the machine word), which any map in memory satisfies."
  },
  {
   "property": "C38",
   "status": "proved",
   "theorems": [
    "Rpds.Props.C38_rb_map_get_mut_local"
   ],
   "note": ""
  },
  {
   "property": "C39",
   "status": "proved",
   "theorems": [
    "Rpds.Props.C39_rb_map_eq_extensional",
    "Rpds.Props.C39_rb_map_order",
    "Rpds.Props.C39_rb_map_hash"
   ],
   "note": "Statements about iterators assume size + 1 < 2^W (the machine word), which any map in memory satisfies."
  },
  {
   "property": "C40",
   "status": "proved",
   "theorems": [
    "Rpds.Props.C40_rb_set_refines_finite_set",
    "Rpds.Props.C40_rb_set_range",
    "Rpds.Props.C40_rb_set_get_latest"
   ],
   "note": "Statements about iterators assume size + 1 < 2^W (the machine word), which any map in memory satisfies."
  },
  {
   "property": "C41",
   "status": "proved",
   "theorems": [
    "Rpds.Props.C41_rb_set_relations"
   ],
   "note": "Statements about iterators assume size + 1 < 2^W (the machine word), which any map in memory satisfies."
  },
  {
   "property": "C46",
   "status": "proved",
   "theorems": [
    "Rpds.Props.C46_list_round_trip",
    "Rpds.Props.C46_stack_round_trip",
    "Rpds.Props.C46_queue_round_trip",
    "Rpds.Props.C46_vector_round_trip",
    "Rpds.Props.C46_hash_map_round_trip",
    "Rpds.Props.C46_hash_set_round_trip",
    "Rpds.Props.C46_rb_map_round_trip",
    "Rpds.Props.C46_rb_set_round_trip"
   ],
   "note": "The serializer is modelled as the sequence of items it is given, the deserializer as the sequence of results it yields; the data formats of serde are not modelled. For Vector the number of items is at most 2^(5*floor((W-1)/5)) (2^60 for 64 bit words). Statements about iterators assume size + 1 < 2^W (the machine word), which any map in memory satisfies."
  },
  {
   "property": "C47",
   "status": "proved",
   "theorems": [
    "Rpds.Props.C47_list_deserialize_errors",
    "Rpds.Props.C47_stack_deserialize_errors",
    "Rpds.Props.C47_queue_deserialize_errors",
    "Rpds.Props.C47_vector_deserialize_errors",
    "Rpds.Props.C47_hash_map_deserialize_errors",
    "Rpds.Props.C47_hash_set_deserialize_errors",
    "Rpds.Props.C47_rb_map_deserialize_errors",
    "Rpds.Props.C47_rb_set_deserialize_errors"
   ],
   "note": "For Vector the number of items is at most 2^(5*floor((W-1)/5)) (2^60 for 64 bit words). "
  },
  {
   "property": "C48",
   "status": "proved",
   "theorems": [
    "Rpds.Props.C48_list_hash",
    "Rpds.Props.C48_stack_hash",
    "Rpds.Props.C48_queue_hash",
    "Rpds.Props.C48_vector_hash",
    "Rpds.Props.C48_rb_set_hash",
    "Rpds.Props.C48_rb_map_hash_separates",
    "Rpds.Props.C39_rb_map_hash"
   ],
   "note": "Statements about iterators assume size + 1 < 2^W (the machine word), which any map in memory satisfies."
  },
  {
   "property": "C49",
   "status": "proved",
   "theorems": [
    "Rpds.Props.C49_list_order",
    "Rpds.Props.C49_stack_order",
    "Rpds.Props.C49_queue_order",
    "Rpds.Props.C49_vector_order",
    "Rpds.Props.C49_rb_map_order",
    "Rpds.Props.C49_rb_set_order"
   ],
   "note": "Statements about iterators assume size + 1 < 2^W (the machine word), which any map in memory satisfies."
  },
  {
   "property": "C50",
   "status": "proved",
   "theorems": [
    "Rpds.Props.C50_list_collect",
    "Rpds.Props.C50_stack_collect",
    "Rpds.Props.C50_queue_collect",
    "Rpds.Props.C50_vector_collect",
    "Rpds.Props.C50_vector_extend",
    "Rpds.Props.C50_hash_map_collect",
    "Rpds.Props.C50_hash_set_collect",
    "Rpds.Props.C50_rb_map_collect",
    "Rpds.Props.C50_rb_set_collect"
   ],
   "note": "For Vector the number of items is at most 2^(5*floor((W-1)/5)) (2^60 for 64 bit words). Statements about iterators assume size + 1 < 2^W (the machine word), which any map in memory satisfies."
  },
  {
   "property": "C51",
   "status": "proved",
   "theorems": [
    "Rpds.Props.C51_sequences_display",
    "Rpds.Props.C51_hash_display",
    "Rpds.Props.C51_rb_display"
   ],
   "note": "Formatting of an element is an arbitrary function to strings; for the formatter's flags and for formatters that fail see C67. Statements about iterators assume size + 1 < 2^W (the machine word), which any map in memory satisfies."
  },
  {
   "property": "C42",
   "status": "proved",
   "theorems": [
    "Rpds.Props.C42_list_persistent",
    "Rpds.Props.C42_stack_persistent",
    "Rpds.Props.C42_queue_persistent",
    "Rpds.Props.C42_vector_persistent",
    "Rpds.Props.C42_rb_map_persistent",
    "Rpds.Props.C42_rb_set_persistent",
    "Rpds.Props.C42_hash_map_persistent",
    "Rpds.Props.C42_hash_set_persistent"
   ],
   "note": "All structures."
  },
  {
   "property": "C43",
   "status": "proved",
   "theorems": [
    "Rpds.Props.C43_list_counts",
    "Rpds.Props.C43_stack_counts",
    "Rpds.Props.C43_queue_counts",
    "Rpds.Props.C43_vector_counts",
    "Rpds.Props.C43_rb_map_counts",
    "Rpds.Props.C43_rb_set_counts",
    "Rpds.Props.C43_hash_map_counts",
    "Rpds.Props.C43_hash_set_counts"
   ],
   "note": "All structures."
  },
  {
   "property": "C44",
   "status": "proved",
   "theorems": [
    "Rpds.Props.C44_list_threads",
    "Rpds.Props.C44_stack_threads",
    "Rpds.Props.C44_queue_threads",
    "Rpds.Props.C44_vector_threads",
    "Rpds.Props.C44_rb_map_threads",
    "Rpds.Props.C44_rb_set_threads",
    "Rpds.Props.C44_hash_map_threads",
    "Rpds.Props.C44_hash_set_threads"
   ],
   "note": "All structures. Interleavings of atomic pointer operations, sequentially consistent (C76 has the orderings of Arc)."
  },
  {
   "property": "C45",
   "status": "partial",
   "theorems": [
    "Rpds.Props.C45_list_drop_flat_partial",
    "Rpds.Props.C45_stack_drop_flat_partial",
    "Rpds.Props.C45_queue_drop_flat_partial",
    "Rpds.Props.C45_list_drop_bounded_partial",
    "Rpds.Props.C45_stack_drop_bounded_partial",
    "Rpds.Props.C45_queue_drop_bounded_partial",
    "Rpds.Props.C45_list_drop_race"
   ],
   "note": "One thread, any history and sharing: nesting at most 1. For Sync lists the claim is false: C45_list_drop_race is a race in which destructors nest as deep as the list is long. The bounded theorems say that this is the worst: under every schedule nesting is at most the length of the longest list."
  },
  {
   "property": "C52",
   "status": "proved",
   "theorems": [
    "Rpds.Props.C52_rb_map_ptr_eq_sound",
    "Rpds.Props.C52_rb_map_ptr_eq_kept",
    "Rpds.Props.C52_rb_set_ptr_eq_sound",
    "Rpds.Props.C52_rb_set_ptr_eq_kept",
    "Rpds.Props.C52_hash_map_ptr_eq_sound",
    "Rpds.Props.C52_hash_map_ptr_eq_kept",
    "Rpds.Props.C52_hash_set_ptr_eq_sound",
    "Rpds.Props.C52_hash_set_ptr_eq_kept",
    "Rpds.Props.C52_shortcut_needs_reflexive"
   ],
   "note": "All pairs of handles of a client and of several threads, on the reference counted heap; hash maps of one client have one hasher and degree. Statements about iterators assume size + 1 < 2^W (the machine word), which any map in memory satisfies."
  },
  {
   "property": "C53",
   "status": "proved",
   "theorems": [
    "Rpds.Props.C53_hash_map_order",
    "Rpds.Props.C53_hash_map_order_deterministic",
    "Rpds.Props.C53_hash_set_order"
   ],
   "note": "The determinism statement assumes that different keys of the map have different hashes; within a collision bucket the order depends on the history."
  },
  {
   "property": "C54",
   "status": "proved",
   "theorems": [
    "Rpds.Props.C54_rb_map_unlawful",
    "Rpds.Props.C54_rb_map_unlawful_iterators",
    "Rpds.Props.C54_rb_map_unlawful_compare",
    "Rpds.Props.C54_rb_set_unlawful",
    "Rpds.Props.C54_hash_map_unlawful",
    "Rpds.Props.C54_hash_map_unlawful_compare",
    "Rpds.Props.C54_hash_set_unlawful"
   ],
   "note": "The functions are pure during one operation and arbitrary otherwise; a function that changes its answer within one operation is not covered (see DESIGN.md). Hash maps of degree at least 2. Statements about iterators assume size + 1 < 2^W (the machine word), which any map in memory satisfies."
  },
  {
   "property": "C55",
   "status": "proved",
   "theorems": [
    "Rpds.Props.C55_rb_map_user_panics",
    "Rpds.Props.C55_rb_map_panic_unchanged",
    "Rpds.Props.C55_rb_map_no_panic",
    "Rpds.Props.C55_hash_map_user_panics",
    "Rpds.Props.C55_hash_map_hash_clone_panics",
    "Rpds.Props.C55_hash_map_panic_loss",
    "Rpds.Props.C55_hash_map_no_panic",
    "Rpds.Props.C55_hash_map_panic_loses_pairs",
    "Rpds.Props.C55_hash_map_fickle_eq",
    "Rpds.Props.C55_rb_set_user_panics",
    "Rpds.Props.C55_rb_set_panic_unchanged",
    "Rpds.Props.C55_rb_set_no_panic",
    "Rpds.Props.C55_hash_set_user_panics",
    "Rpds.Props.C55_hash_set_hash_panics",
    "Rpds.Props.C55_hash_set_panic_loss",
    "Rpds.Props.C55_hash_set_no_panic"
   ],
   "note": "Value model: the panic ends the operation and the map is what is left in the variable. Hash maps: Eq, when it answers, answers by a fixed function within one operation (DESIGN.md finding 12). C55_hash_map_panic_loses_pairs and C55_hash_map_fickle_eq are counterexamples: the loss of pairs in a collision bucket, and an Eq that changes its mind within one operation. Statements about iterators assume size + 1 < 2^W (the machine word), which any map in memory satisfies."
  },
  {
   "property": "C56",
   "status": "proved",
   "theorems": [
    "Rpds.Props.C56_rb_map_comparisons",
    "Rpds.Props.C56_hash_map_eq_calls",
    "Rpds.Props.C56_hash_map_hash_once",
    "Rpds.Props.C56_hash_map_eq_once"
   ],
   "note": "Counted by user code with a fuse (panics at the call after the N-th): the operation does with the fuse what it does without. Map operations of C55; for iterators, equality and set algebra see C68. Statements about iterators assume size + 1 < 2^W (the machine word), which any map in memory satisfies."
  },
  {
   "property": "C57",
   "status": "proved",
   "theorems": [
    "Rpds.Props.C57_list_cost",
    "Rpds.Props.C57_stack_cost",
    "Rpds.Props.C57_queue_cost",
    "Rpds.Props.C57_queue_amortised",
    "Rpds.Props.C57_vector_cost",
    "Rpds.Props.C57_rb_map_cost",
    "Rpds.Props.C57_rb_set_cost",
    "Rpds.Props.C57_hash_map_cost",
    "Rpds.Props.C57_hash_set_cost"
   ],
   "note": "Heap model; what is counted is in DESIGN.md. Iteration over trees is not limited, nor are the releases that dropping a last handle causes. Hash maps of degree at least 2; the constants are for the deepest trie (degree 2)."
  },
  {
   "property": "C58",
   "status": "proved",
   "theorems": [
    "Rpds.Props.C58_list_sharing",
    "Rpds.Props.C58_stack_sharing",
    "Rpds.Props.C58_queue_sharing",
    "Rpds.Props.C58_vector_sharing",
    "Rpds.Props.C58_rb_map_sharing",
    "Rpds.Props.C58_rb_set_sharing",
    "Rpds.Props.C58_list_versions",
    "Rpds.Props.C58_stack_versions",
    "Rpds.Props.C58_vector_versions",
    "Rpds.Props.C58_rb_map_versions",
    "Rpds.Props.C58_rb_set_versions",
    "Rpds.Props.C58_hash_map_sharing",
    "Rpds.Props.C58_hash_set_sharing",
    "Rpds.Props.C58_hash_map_versions",
    "Rpds.Props.C58_hash_set_versions"
   ],
   "note": "Heap model, one thread; cells are counted, not bytes. For hash tries the bound depends on the largest group of keys with the same hash."
  },
  {
   "property": "C59",
   "status": "proved",
   "theorems": [
    "Rpds.Props.C59_list_shared",
    "Rpds.Props.C59_stack_shared",
    "Rpds.Props.C59_queue_shared",
    "Rpds.Props.C59_vector_shared",
    "Rpds.Props.C59_rb_map_shared",
    "Rpds.Props.C59_rb_set_shared",
    "Rpds.Props.C59_hash_map_shared",
    "Rpds.Props.C59_hash_set_shared"
   ],
   "note": "Heap model; interleavings are sequentially consistent (C76 has the orderings of Arc). That lent handles are not mutated or dropped is a hypothesis (Rust's borrow rules); an example shows it is needed. The operations that take &self are listed in listByRef etc. Hash maps of degree at least 2."
  },
  {
   "property": "C60",
   "status": "proved",
   "theorems": [
    "Rpds.Props.C60_vector_drop_shallow",
    "Rpds.Props.C60_rb_map_drop_shallow",
    "Rpds.Props.C60_rb_set_drop_shallow",
    "Rpds.Props.C60_hash_map_drop_shallow",
    "Rpds.Props.C60_hash_set_drop_shallow",
    "Rpds.Props.C60_glue_same_memory",
    "Rpds.Props.C60_glue_same_result",
    "Rpds.Props.C60_hash_map_drop_flat",
    "Rpds.Props.C60_hash_set_drop_flat",
    "Rpds.Props.C60_hash_map_drop_threads",
    "Rpds.Props.C60_hash_set_drop_threads"
   ],
   "note": "Heap model; depth in cells, not bytes of stack. Two machines: collision lists released by recursion, or by the loop of Drop for List; the second simulates the first. Hash maps of degree at least 2. For lists see C45."
  },
  {
   "property": "C61",
   "status": "proved",
   "theorems": [
    "Rpds.Props.C61_split_progress",
    "Rpds.Props.C61_split_ends"
   ],
   "note": "Value model of the producer; degree at least 2 (reachable maps)."
  },
  {
   "property": "C62",
   "status": "proved",
   "theorems": [
    "Rpds.Props.C62_list_iterators",
    "Rpds.Props.C62_stack_iterators",
    "Rpds.Props.C62_queue_iterators",
    "Rpds.Props.C62_vector_iterators",
    "Rpds.Props.C62_rb_map_iterators",
    "Rpds.Props.C62_rb_set_iterators",
    "Rpds.Props.C62_hash_map_iterators",
    "Rpds.Props.C62_hash_set_iterators"
   ],
   "note": "Heap model; interleavings are sequentially consistent (C76 has the orderings of Arc). That iterated handles are not mutated or dropped is a hypothesis (Rust's borrow rules); examples show it is needed. Iterators over keys and values, and iter_mut, are not repeated. Hash maps of degree at least 2."
  },
  {
   "property": "C63",
   "status": "proved",
   "theorems": [
    "Rpds.Props.C63_list_iteration_cost",
    "Rpds.Props.C63_stack_iteration_cost",
    "Rpds.Props.C63_queue_iteration_cost",
    "Rpds.Props.C63_vector_iteration_cost",
    "Rpds.Props.C63_rb_map_iteration_cost",
    "Rpds.Props.C63_rb_set_iteration_cost",
    "Rpds.Props.C63_hash_map_iteration_cost",
    "Rpds.Props.C63_hash_set_iteration_cost"
   ],
   "note": "Heap model; cost is the number of memory cells read, not time: pushes on the stack of the iterator, comparisons of keys in range iterators (see C68) and copying references are not counted. For red-black trees creation is constant, better than documented. The constant for hash tries is 267, four for each possible level. Hash maps of degree at least 2."
  },
  {
   "property": "C64",
   "status": "proved",
   "theorems": [
    "Rpds.Props.C64_list_collect_hint",
    "Rpds.Props.C64_list_collect_unbounded",
    "Rpds.Props.C64_empty_but_panics",
    "Rpds.Props.C64_zero_sized",
    "Rpds.Props.C64_deserialize_hint",
    "Rpds.Props.C64_stack_queue_collect_hint",
    "Rpds.Props.C64_announced_length",
    "Rpds.Props.C64_list_round_trip"
   ],
   "note": "std's Vec is modelled by its capacity: with_capacity and growth by doubling ask an allocator that grants requests up to a fixed size.  Vectors, maps and sets call no function that reserves."
  },
  {
   "property": "C65",
   "status": "proved",
   "theorems": [
    "Rpds.Props.C65_list_debug_depth",
    "Rpds.Props.C65_stack_debug_depth",
    "Rpds.Props.C65_queue_debug_depth",
    "Rpds.Props.C65_linear_debug_unbounded",
    "Rpds.Props.C65_vector_debug_depth",
    "Rpds.Props.C65_rb_map_debug_depth",
    "Rpds.Props.C65_rb_set_debug_depth",
    "Rpds.Props.C65_hash_map_debug_depth",
    "Rpds.Props.C65_hash_set_debug_depth",
    "Rpds.Props.C65_debug_not_extensional"
   ],
   "note": "Depth counts calls of fmt of nodes, fields and elements; the calls of pointers and of the builders of core::fmt, a constant factor, are not counted. Hash maps of degree at least 2."
  },
  {
   "property": "C66",
   "status": "proved",
   "theorems": [
    "Rpds.Props.C66_list_in_place",
    "Rpds.Props.C66_stack_in_place",
    "Rpds.Props.C66_queue_in_place",
    "Rpds.Props.C66_vector_in_place",
    "Rpds.Props.C66_rb_map_in_place",
    "Rpds.Props.C66_rb_set_in_place",
    "Rpds.Props.C66_hash_map_in_place",
    "Rpds.Props.C66_hash_set_in_place"
   ],
   "note": "Heap model, sequential clients. A watched client stops at the first failed uniqueness test, copied cell or allocation beyond the allowance; the theorems say it runs exactly as the client does. The buffers of Vec in branches are not cells. Hash tries: until the first collision cell is written. Hash maps of degree at least 2."
  },
  {
   "property": "C67",
   "status": "proved",
   "theorems": [
    "Rpds.Props.C67_sequences_display",
    "Rpds.Props.C67_hash_display",
    "Rpds.Props.C67_rb_display",
    "Rpds.Props.C67_serialize",
    "Rpds.Props.C67_text"
   ],
   "note": "A call on the sink may change its state also when it fails. The serializer's collect_seq and collect_map are serde's default implementations. Statements about iterators assume size + 1 < 2^W (the machine word), which any map in memory satisfies."
  },
  {
   "property": "C68",
   "status": "proved",
   "theorems": [
    "Rpds.Props.C68_rb_range",
    "Rpds.Props.C68_rb_iter",
    "Rpds.Props.C68_rb_compare",
    "Rpds.Props.C68_rb_partial_cmp",
    "Rpds.Props.C68_rb_set",
    "Rpds.Props.C68_rb_set_compare",
    "Rpds.Props.C68_hash_map_eq",
    "Rpds.Props.C68_hash_set",
    "Rpds.Props.C68_hash_set_eq",
    "Rpds.Props.C68_hash_kinds",
    "Rpds.Props.C68_rb_kinds"
   ],
   "note": "Programs are trees of questions to user code; each theorem also says that with stateless answers the program is the function of the model. keys()/values() are not restated; they are the counted iterators with a projection. Statements about iterators assume size + 1 < 2^W (the machine word), which any map in memory satisfies."
  },
  {
   "property": "C69",
   "status": "proved",
   "theorems": [
    "Rpds.Props.C69_list_canonical",
    "Rpds.Props.C69_vector_canonical",
    "Rpds.Props.C69_hash_map_shape",
    "Rpds.Props.C69_hash_map_canonical",
    "Rpds.Props.C69_hash_set_canonical",
    "Rpds.Props.C69_hash_map_single_pair",
    "Rpds.Props.C69_queue_depends_on_history",
    "Rpds.Props.C69_rb_map_depends_on_history"
   ],
   "note": "Value model: sharing between versions is not part of the structure compared. Bitmaps are compared in all bits of the machine word. Hash maps of degree at least 2."
  },
  {
   "property": "C70",
   "status": "proved",
   "theorems": [
    "Rpds.Props.C70_list_memory",
    "Rpds.Props.C70_stack_memory",
    "Rpds.Props.C70_queue_memory",
    "Rpds.Props.C70_vector_memory",
    "Rpds.Props.C70_rb_map_memory",
    "Rpds.Props.C70_rb_set_memory",
    "Rpds.Props.C70_hash_map_memory",
    "Rpds.Props.C70_hash_set_memory",
    "Rpds.Props.C70_list_memory_shared",
    "Rpds.Props.C70_stack_memory_shared",
    "Rpds.Props.C70_queue_memory_shared",
    "Rpds.Props.C70_vector_memory_shared",
    "Rpds.Props.C70_rb_map_memory_shared",
    "Rpds.Props.C70_rb_set_memory_shared",
    "Rpds.Props.C70_hash_map_memory_shared",
    "Rpds.Props.C70_hash_set_memory_shared"
   ],
   "note": "Heap model; the theorems ending in _shared are about handles lent to several threads through &. Every node, element and entry is one cell, whatever its size in bytes. The spare capacity of a Vec inside a node is not counted. While threads are still running there is no bound of this form: a thread in the middle of an operation may hold an old and a new version."
  },
  {
   "property": "C71",
   "status": "proved",
   "theorems": [
    "Rpds.Props.C71_list_from_source",
    "Rpds.Props.C71_stack_from_source",
    "Rpds.Props.C71_queue_from_source",
    "Rpds.Props.C71_vector_from_source",
    "Rpds.Props.C71_vector_extend",
    "Rpds.Props.C71_vector_get_mut",
    "Rpds.Props.C71_rb_map_from_source",
    "Rpds.Props.C71_rb_set_from_source",
    "Rpds.Props.C71_hash_map_from_source",
    "Rpds.Props.C71_hash_set_from_source"
   ],
   "note": "Value model. That building does not end is said as: after any number of calls it is still running; for vectors as long as the items fit their capacity. Ord, Eq and Hash of the items are lawful and do not panic here (see C54, C55). Whether an element is shared is a parameter of get_mut."
  },
  {
   "property": "C72",
   "status": "proved",
   "theorems": [
    "Rpds.Props.C72_list_counters",
    "Rpds.Props.C72_stack_counters",
    "Rpds.Props.C72_queue_counters",
    "Rpds.Props.C72_rb_map_counters",
    "Rpds.Props.C72_rb_set_counters",
    "Rpds.Props.C72_hash_map_counters",
    "Rpds.Props.C72_hash_set_counters"
   ],
   "note": "Heap model. That memory has fewer than 2^W cells and pointers (each takes at least a word) is not part of the theorems. Vectors are not mentioned: their length is machine arithmetic in the model already (C08). Elements of one handle are in different cells: nodes of a chain because each has fewer after it, entries of maps because their keys differ."
  },
  {
   "property": "C73",
   "status": "proved",
   "theorems": [
    "Rpds.Props.C73_rb_map_sound",
    "Rpds.Props.C73_rb_set_sound",
    "Rpds.Props.C73_rb_map_replace",
    "Rpds.Props.C73_rb_map_replace_last",
    "Rpds.Props.C73_rb_set_replace",
    "Rpds.Props.C73_hash_map_sound",
    "Rpds.Props.C73_hash_map_as_before",
    "Rpds.Props.C73_hash_map_drop",
    "Rpds.Props.C73_hash_set_sound",
    "Rpds.Props.C73_vector_sound",
    "Rpds.Props.C73_vector_room",
    "Rpds.Props.C73_vector_replace",
    "Rpds.Props.C73_list_sound",
    "Rpds.Props.C73_stack_sound",
    "Rpds.Props.C73_queue_sound"
   ],
   "note": "Heap model; user code cannot reach the handles of the program (in Rust it could only by sharing through cells) and its own memory is not modelled. make_mut always asks Clone, also where the code does not need to. Clone and Drop of the keys and values themselves have no effect on memory. Drop may panic for hash tries (the pair that is removed or replaced) and for lists, stacks and queues (at the end of any operation), for what insert_mut of red-black trees and set_mut, get_mut and index_mut of vectors replace (at the end), not in remove_mut of red-black trees and drop_last_mut of vectors; that the memory is released all the same is how drop glue works, and drops during unwinding do not panic (the program would abort). Threads also with the memory orderings of Arc (as in C76)."
  },
  {
   "property": "C74",
   "status": "proved",
   "theorems": [
    "Rpds.Props.C74_vector_drop_last_mut",
    "Rpds.Props.C74_rb_map_remove_mut",
    "Rpds.Props.C74_rb_map_loses_all_but_four",
    "Rpds.Props.C74_rb_set_remove_mut",
    "Rpds.Props.C74_ht_map_remove_mut",
    "Rpds.Props.C74_ht_map_insert_mut",
    "Rpds.Props.C74_ht_set_remove_mut",
    "Rpds.Props.C74_ht_set_insert_mut",
    "Rpds.Props.C74_linear_finished",
    "Rpds.Props.C74_vector_set_mut",
    "Rpds.Props.C74_rb_map_insert_mut",
    "Rpds.Props.C74_rb_set_insert_mut",
    "Rpds.Props.C74_rb_map_examples",
    "Rpds.Props.C74_ht_map_examples",
    "Rpds.Props.C74_vector_examples"
   ],
   "note": "Value model with its own definitions of the interrupted operations (Verif/Drop), which follow the order of drops in the source. Exactly one drop panics; a second panic during unwinding aborts in Rust. Statements about iterators assume size + 1 < 2^W (the machine word), which any map in memory satisfies."
  },
  {
   "property": "C75",
   "status": "proved",
   "theorems": [
    "Rpds.Props.C75_list_drop",
    "Rpds.Props.C75_list_drop_unbounded"
   ],
   "note": "The list owns its nodes and elements alone (the last element is shared with the field last). The model of the drop is small and only counts nesting."
  },
  {
   "property": "C76",
   "status": "proved",
   "theorems": [
    "Rpds.Props.C76_list_orderings",
    "Rpds.Props.C76_stack_orderings",
    "Rpds.Props.C76_queue_orderings",
    "Rpds.Props.C76_vector_orderings",
    "Rpds.Props.C76_rb_map_orderings",
    "Rpds.Props.C76_rb_set_orderings",
    "Rpds.Props.C76_hash_map_orderings",
    "Rpds.Props.C76_hash_set_orderings",
    "Rpds.Props.C76_events"
   ],
   "note": "Heap model with events and happens-before (Verif/Heap/Order.lean). The orderings of triomphe::Arc and std Arc are assumed (their source is not available here), and that executions are interleavings with stale uniqueness tests as described in DESIGN.md."
  },
  {
   "property": "C77",
   "status": "proved",
   "theorems": [
    "Rpds.Props.C77_collections",
    "Rpds.Props.C77_iterators",
    "Rpds.Props.C77_parallel",
    "Rpds.Props.C77_rc"
   ],
   "note": "The rules for auto traits and the traits of std types and of SharedPointer (as Arc and Rc) are assumptions; the rest is what the types of the library hold. Option, Vec, SmallVec, PhantomData, Once and Map with a function pointer are left out, having the traits of what they hold."
  }
 ]
}