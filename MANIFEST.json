{
 "claims": [
  {
   "property": "C01",
   "status": "proved",
   "theorems": [
    "MI.Cont.C01_same_elements",
    "MI.Cont.C01_no_undefined_behaviour"
   ],
   "note": "Histories over any number of containers and node handles, any index mix, any throw points."
  },
  {
   "property": "C02",
   "status": "proved",
   "theorems": [
    "MI.Cont.C02_insert",
    "MI.Cont.C02_emplace",
    "MI.Cont.C02_insert_node"
   ],
   "note": "Value, emplacement and node handle insertion, hinted or not."
  },
  {
   "property": "C03",
   "status": "proved",
   "theorems": [
    "MI.Cont.C03_unique"
   ],
   "note": "Every reachable state."
  },
  {
   "property": "C04",
   "status": "proved",
   "theorems": [
    "MI.Cont.C04_sorted"
   ],
   "note": "Every reachable state."
  },
  {
   "property": "C05",
   "status": "proved",
   "theorems": [
    "MI.Cont.C05_insert",
    "MI.Cont.C05_emplace",
    "MI.Cont.C05_insert_node",
    "MI.Cont.C05_not_swallowed"
   ],
   "note": "Every combination of throwing calls."
  },
  {
   "property": "C06",
   "status": "proved",
   "theorems": [
    "MI.Cont.C06_replace",
    "MI.Cont.C06_keeps_position"
   ],
   "note": "Every combination of throwing calls."
  },
  {
   "property": "C07",
   "status": "proved",
   "theorems": [
    "MI.Cont.C07_modify",
    "MI.Cont.C07_not_swallowed",
    "MI.Cont.C07_keeps_position"
   ],
   "note": "Every combination of throwing calls."
  },
  {
   "property": "C08",
   "status": "partial",
   "theorems": [
    "MI.Cont.C08_modify_rollback_partial",
    "MI.Cont.C08_rollback_on_throw_false",
    "MI.Cont.C08_no_double_erase_false",
    "MI.Cont.C08_outcomes"
   ],
   "note": "All but the throwing case; there the documented guarantee is false of the code: the element is erased although the rollback succeeded, and erased twice (undefined behaviour) if the rollback left it out of place. Both negations are proved with reachable witnesses. C08_outcomes says what happens in every case, including undefined behaviour."
  },
  {
   "property": "C09",
   "status": "proved",
   "theorems": [
    "MI.Cont.C09_erase",
    "MI.Cont.C09_extract",
    "MI.Cont.C09_erase_returns_next"
   ],
   "note": "Every index of every reachable container."
  },
  {
   "property": "C10",
   "status": "proved",
   "theorems": [
    "MI.Cont.C10_one_owner",
    "MI.Cont.C10_no_leak",
    "MI.Cont.C10_drop_handle",
    "MI.Cont.C50_clear",
    "MI.Cont.C50_destroy",
    "MI.Cont.C02_emplace",
    "MI.Cont.C02_insert_node"
   ],
   "note": "Every reachable state of programs with any number of containers and handles."
  },
  {
   "property": "C11",
   "status": "proved",
   "theorems": [
    "MI.Cont.C11_merge",
    "MI.Cont.C11_merge_self",
    "MI.Cont.C11_merge_one",
    "MI.Cont.C11_conserved"
   ],
   "note": "Any range of any index of the source, every throw point."
  },
  {
   "property": "C12",
   "status": "proved",
   "theorems": [
    "MI.Ord.C12_lower_bound",
    "MI.Ord.C12_upper_bound",
    "MI.Ord.C12_find",
    "MI.Ord.C12_equal_range",
    "MI.Ord.C12_count",
    "MI.Ord.C12_contains",
    "MI.Cont.C12_container",
    "MI.Cont.C12_container_self"
   ],
   "note": "All trees, all documented compatible keys; logarithmic iteration bound included. Also for every index of every container of every state a program may reach (\u2026_container)."
  },
  {
   "property": "C13",
   "status": "proved",
   "theorems": [
    "MI.Ord.C13_range",
    "MI.Cont.C13_container"
   ],
   "note": "Bounded, half-bounded and unbounded versions. Also for every index of every container of every state a program may reach (\u2026_container)."
  },
  {
   "property": "C14",
   "status": "proved",
   "theorems": [
    "MI.Ord.C14_insert_nonunique",
    "MI.Ord.C14_hint_nonunique",
    "MI.Ord.C14_insert_unique"
   ],
   "note": "Hint optimality: no other sorted place is as close."
  },
  {
   "property": "C15",
   "status": "proved",
   "theorems": [
    "MI.Ord.C15_height",
    "MI.Ord.C15_history",
    "MI.Cont.C15_container"
   ],
   "note": "Pointer-level model of the rotations, link, rebalance_for_extract and restore. Also for every index of every container of every state a program may reach (\u2026_container)."
  },
  {
   "property": "C16",
   "status": "proved",
   "theorems": [
    "MI.Ord.C16_link_left",
    "MI.Ord.C16_link_right",
    "MI.Ord.C16_link_first",
    "MI.Ord.C16_extract",
    "MI.Ord.C16_restore",
    "MI.Ord.C16_ends",
    "MI.Ord.C16_history"
   ],
   "note": "Pointer-level, with frame conditions."
  },
  {
   "property": "C17",
   "status": "proved",
   "theorems": [
    "MI.Ord.C17_increment",
    "MI.Ord.C17_decrement",
    "MI.Cont.C17_container"
   ],
   "note": "All trees and positions. Also for every index of every container of every state a program may reach (\u2026_container)."
  },
  {
   "property": "C18",
   "status": "proved",
   "theorems": [
    "MI.Ord.C18_nth",
    "MI.Ord.C18_rank",
    "MI.Ord.C18_rank_end",
    "MI.Ord.C18_inverse",
    "MI.Ord.C18_history",
    "MI.Cont.C18_container"
   ],
   "note": "Subtree counts are maintained by every modelled rotation and splice. Also for every index of every container of every state a program may reach (\u2026_container)."
  },
  {
   "property": "C19",
   "status": "proved",
   "theorems": [
    "MI.Ord.C19_lower_bound_rank",
    "MI.Ord.C19_upper_bound_rank",
    "MI.Ord.C19_equal_range_rank",
    "MI.Ord.C19_count",
    "MI.Ord.C19_find_rank",
    "MI.Ord.C19_range_rank",
    "MI.Cont.C19_container",
    "MI.Cont.C19_range_container"
   ],
   "note": "All trees, all documented compatible keys. Also for every index of every container of every state a program may reach (\u2026_container)."
  },
  {
   "property": "C20",
   "status": "proved",
   "theorems": [
    "MI.Hash.C20_traversal",
    "MI.Hash.C20_history",
    "MI.Hash.C20_find",
    "MI.Hash.C20_count",
    "MI.Hash.C20_equal_range",
    "MI.Hash.C20_bucket_size",
    "MI.Hash.C20_find_self",
    "MI.Hash.C20_insert",
    "MI.Hash.C20_erase",
    "MI.Hash.C20_clear",
    "MI.Hash.C20_modify_in_place",
    "MI.Hash.C20_modify_unlink",
    "MI.Cont.C20_container",
    "MI.Cont.C20_container_self"
   ],
   "note": "Pointer-level model; histories of insertions, erasures, rehashes (throwing or not) and clearings; all documented compatible keys. Also for every index of every container of every state a program may reach (\u2026_container)."
  },
  {
   "property": "C21",
   "status": "proved",
   "theorems": [
    "MI.Hash.C21_adjacent",
    "MI.Hash.C21_unique",
    "MI.Hash.C21_insert",
    "MI.Hash.C20_equal_range",
    "MI.Hash.C20_history"
   ],
   "note": "Holds of every state that a history leads to."
  },
  {
   "property": "C22",
   "status": "proved",
   "theorems": [
    "MI.Hash.C22_rehash",
    "MI.Hash.C22_rehash_throw"
   ],
   "note": "Every throw point; equal elements keep their relative order."
  },
  {
   "property": "C23",
   "status": "proved",
   "theorems": [
    "MI.Hash.C23_undo",
    "MI.Hash.C23_undo_index"
   ],
   "note": "Equality of memories, for arbitrary memories; the fixed-size log suffices."
  },
  {
   "property": "C24",
   "status": "proved",
   "theorems": [
    "MI.Hash.C24_size",
    "MI.Hash.C24_position"
   ],
   "note": "Both tables (64 and 32 bits)."
  },
  {
   "property": "C25",
   "status": "proved",
   "theorems": [
    "MI.Hash.C25_equals",
    "MI.Cont.C25_containers_equal"
   ],
   "note": "Unique and non-unique, any bucket arrays."
  },
  {
   "property": "C26",
   "status": "proved",
   "theorems": [
    "MI.Seq.C26_insert",
    "MI.Seq.C26_insert_rejected",
    "MI.Seq.C26_push_front",
    "MI.Seq.C26_push_back",
    "MI.Seq.C26_insert_range",
    "MI.Seq.C26_erase",
    "MI.Seq.C26_erase_range",
    "MI.Seq.C26_shrink",
    "MI.Seq.C26_assign",
    "MI.Seq.C26_traverse",
    "MI.Seq.C26_decrement"
   ],
   "note": "Pointer-level refinement to list operations."
  },
  {
   "property": "C27",
   "status": "proved",
   "theorems": [
    "MI.Seq.C27_relocate",
    "MI.Seq.C27_relocate_self",
    "MI.Seq.C27_relocate_range",
    "MI.Seq.C27_reverse",
    "MI.Seq.C27_rearrange",
    "MI.Seq.C27_splice_other_index",
    "MI.Seq.C27_swap",
    "MI.Cont.C27_only_that_index",
    "MI.Cont.C27_relocate_only_that_index"
   ],
   "note": "Pointer-level refinement to list operations; within a container the other indices are unaffected."
  },
  {
   "property": "C28",
   "status": "partial",
   "theorems": [
    "MI.Seq.C28_sort_partial",
    "MI.Seq.C28_sort_not_stable"
   ],
   "note": "Sortedness, permutation and termination proved; stability is false of the code (negation proved with a two-element witness)."
  },
  {
   "property": "C29",
   "status": "proved",
   "theorems": [
    "MI.Seq.C29_sort",
    "MI.Seq.C29_remove_if",
    "MI.Seq.C29_unique",
    "MI.Seq.C29_merge"
   ],
   "note": "Arbitrary throwing and inconsistent user predicates."
  },
  {
   "property": "C30",
   "status": "proved",
   "theorems": [
    "MI.Seq.C30_merge",
    "MI.Seq.C30_merge_self"
   ],
   "note": "Also covers rejected transfers."
  },
  {
   "property": "C31",
   "status": "partial",
   "theorems": [
    "MI.Seq.C31_seq_remove_if",
    "MI.Seq.C31_seq_unique",
    "MI.Rnd.C31_rnd_remove_if",
    "MI.Rnd.C31_rnd_remove_if_throw",
    "MI.Rnd.C31_rnd_unique",
    "MI.Rnd.C31_rnd_unique_symmetric",
    "MI.Rnd.C31_rnd_unique_throw",
    "MI.Rnd.C31_rnd_unique_documented_false"
   ],
   "note": "Proved for both index kinds, except that random access unique(pred) passes the arguments of pred in the opposite of the documented order (negation proved; the documented effect is proved for symmetric predicates, and the implemented one for all)."
  },
  {
   "property": "C32",
   "status": "proved",
   "theorems": [
    "MI.Rnd.C32_nth",
    "MI.Rnd.C32_distance",
    "MI.Rnd.C32_advance",
    "MI.Rnd.C32_step",
    "MI.Rnd.C32_new",
    "MI.Rnd.C32_operation",
    "MI.Rnd.C32_history",
    "MI.Rnd.C32_insert",
    "MI.Rnd.C32_insert_range",
    "MI.Rnd.C32_erase",
    "MI.Rnd.C32_erase_range",
    "MI.Cont.C32_container",
    "MI.Cont.C32_operators"
   ],
   "note": "Array-level refinement to list operations; histories over all operations including throwing ones. Also for every index of every container of every state a program may reach (\u2026_container)."
  },
  {
   "property": "C33",
   "status": "proved",
   "theorems": [
    "MI.Rnd.C33_relocate",
    "MI.Rnd.C33_relocate_range",
    "MI.Rnd.C33_relocate_self"
   ],
   "note": "Includes the gcd cycle argument."
  },
  {
   "property": "C34",
   "status": "proved",
   "theorems": [
    "MI.Rnd.C34_reverse",
    "MI.Rnd.C34_rearrange",
    "MI.Rnd.C34_sort",
    "MI.Rnd.C34_sort_throw",
    "MI.Rnd.C34_inplace_merge",
    "MI.Rnd.C34_inplace_merge_throw",
    "MI.Rnd.C34_internal_splice",
    "MI.Rnd.C34_external_splice",
    "MI.Rnd.C34_merge"
   ],
   "note": "std::stable_sort is assumed to meet its specification; inplace_merge on a buffer is modelled."
  },
  {
   "property": "C35",
   "status": "proved",
   "theorems": [
    "MI.Rnd.C35_reserve",
    "MI.Rnd.C35_shrink_to_fit",
    "MI.Rnd.C35_room_for_one",
    "MI.Rnd.C35_growth",
    "MI.Rnd.C32_history"
   ],
   "note": "Size within capacity after every history is part of C32_history."
  },
  {
   "property": "C36",
   "status": "proved",
   "theorems": [
    "MI.Cont.C36_copy",
    "MI.Cont.C36_copy_throws",
    "MI.Cont.C36_copy_disjoint",
    "MI.Cont.C36_assign",
    "MI.Cont.C36_assign_throws",
    "MI.Cont.C36_assign_list"
   ],
   "note": "Every reachable container with any mix of indices, every throw point; links copied field by field through the copy map. Allocator propagation is C52."
  },
  {
   "property": "C37",
   "status": "proved",
   "theorems": [
    "MI.Cont.C37_swap",
    "MI.Cont.C37_move",
    "MI.Cont.C37_move_assign",
    "MI.Cont.C37_move_other",
    "MI.Cont.C37_move_assign_other"
   ],
   "note": "Every pair of reachable containers of the same type, every throw point. Construction and assignment with unequal allocators move the elements one by one; the source loses its elements even if this throws."
  },
  {
   "property": "C38",
   "status": "proved",
   "theorems": [
    "MI.Ser.C38_save",
    "MI.Ser.C38_round_trip"
   ],
   "note": "Every reachable source and destination container with the same indices, of any number and kind. The archive is modelled as the sequence of objects written; object tracking of Boost.Serialization as references to positions."
  },
  {
   "property": "C39",
   "status": "proved",
   "theorems": [
    "MI.Ser.C39_longest"
   ],
   "note": "Any base sequence, any sequence of indices treated before; patience sorting on the array of entries, with its binary searches."
  },
  {
   "property": "C40",
   "status": "proved",
   "theorems": [
    "MI.Key.C40_compare_lexicographic",
    "MI.Key.C40_strict_weak",
    "MI.Key.C40_prefix_lookup_compat",
    "MI.Key.C40_prefix_lookup",
    "MI.Key.C40_prefix_lookup_needs_exact",
    "MI.Key.C40_equal_componentwise",
    "MI.Key.C40_hash_agrees",
    "MI.Key.C40_std_compare",
    "MI.Key.C40_std_equal",
    "MI.Key.C40_std_hash",
    "MI.Key.C40_greater_is_reverse",
    "MI.Key.C40_operators"
   ],
   "note": "Any tuple lengths, any component relations. Prefix lookup: components compared with a value of another type must agree with the value they are compared with, except for the last one (witness that this is needed)."
  },
  {
   "property": "C41",
   "status": "proved",
   "theorems": [
    "MI.Cont.C41_equal",
    "MI.Cont.C41_less",
    "MI.Cont.C41_operators",
    "MI.Cont.C41_containers"
   ],
   "note": "Ordered, sequenced and random access indices, and containers, in every reachable state."
  },
  {
   "property": "C42",
   "status": "proved",
   "theorems": [
    "MI.Cont.C42_stable",
    "MI.Cont.C42_project"
   ],
   "note": "Every operation of the program model."
  },
  {
   "property": "C43",
   "status": "partial",
   "theorems": [
    "MI.Seq.C43_splice_partial",
    "MI.Seq.C43_splice_end_partial",
    "MI.Seq.C43_splice_throw_unsafe",
    "MI.Seq.C43_exception_swallowed",
    "MI.Seq.C43_elements_lost",
    "MI.Rnd.C34_external_splice",
    "MI.Cont.C43_container_false"
   ],
   "note": "The exception guarantee is false of the code for positions other than end(): the catch clause does not rethrow and the list is corrupted (negation proved). The rest is proved; the random access version is proved correct."
  },
  {
   "property": "C44",
   "status": "proved",
   "theorems": [
    "MI.Cont.C44_erase_range",
    "MI.Cont.C44_erase_key",
    "MI.Cont.C44_erase_key_throws",
    "MI.Cont.C44_extract_key"
   ],
   "note": "All index kinds for ranges; ordered and hashed for keys, all documented compatible keys."
  },
  {
   "property": "C45",
   "status": "proved",
   "theorems": [
    "MI.Ord.C45_step",
    "MI.Ord.C45_color_bit",
    "MI.Ord.C45_choice",
    "MI.Ord.C45_chosen",
    "MI.Ord.C45_platforms"
   ],
   "note": "Any word width, any platform, any sequence of updates."
  },
  {
   "property": "C46",
   "status": "proved",
   "theorems": [
    "MI.Cont.C46_construct",
    "MI.Cont.C46_insert_range",
    "MI.Cont.C46_acceptance_determined"
   ],
   "note": "Any mix of indices, any values, every throw point."
  },
  {
   "property": "C47",
   "status": "proved",
   "theorems": [
    "MI.Rnd.C47_load"
   ],
   "note": "Every sequence of moves."
  },
  {
   "property": "C48",
   "status": "proved",
   "theorems": [
    "MI.Safe.C48_valid",
    "MI.Safe.C48_operation",
    "MI.Safe.C48_erase",
    "MI.Safe.C48_extract",
    "MI.Safe.C48_clear",
    "MI.Safe.C48_destroy",
    "MI.Safe.C48_swap",
    "MI.Safe.C48_others",
    "MI.Safe.C48_iterator",
    "MI.Safe.C48_copy",
    "MI.Safe.C48_history"
   ],
   "note": "Every history of programs with any number of containers and iterators, every throw point. Threads are C63; iterators loaded from an archive are unchecked in the code and left out."
  },
  {
   "property": "C49",
   "status": "partial",
   "theorems": [
    "MI.Hash.C49_insert_partial",
    "MI.Hash.C49_rehash_partial",
    "MI.Hash.C49_full_false",
    "MI.Hash.C49_insert_load",
    "MI.Hash.C49_rehash_load",
    "MI.Hash.C49_reserve_load"
   ],
   "note": "Proved for sizes that float represents exactly (up to 2^24); false above (negation proved with a witness in binary32 arithmetic). For all sizes, the load factor is proved to exceed the maximum load factor by at most one part in 2^21 (C49_insert_load, C49_rehash_load, C49_reserve_load)."
  },
  {
   "property": "C50",
   "status": "proved",
   "theorems": [
    "MI.Cont.C50_clear",
    "MI.Cont.C50_destroy"
   ],
   "note": "Every reachable state."
  },
  {
   "property": "C51",
   "status": "proved",
   "theorems": [
    "MI.Ser.C51_load_any",
    "MI.Ser.C51_calls_no_exception",
    "MI.Ser.C51_calls_exception",
    "MI.Ser.C51_index_calls_exception"
   ],
   "note": "Any archive, any throw point, any destination. The C51_calls theorems have every call of a user function explicit."
  },
  {
   "property": "C52",
   "status": "partial",
   "theorems": [
    "MI.Alloc.C52_nodes",
    "MI.Alloc.C52_proper_partial",
    "MI.Alloc.C52_keep_partial",
    "MI.Alloc.C52_owned_false",
    "MI.Alloc.C52_proper_false",
    "MI.Alloc.C52_proper_false_rnd",
    "MI.Alloc.C52_proper_false_rehash"
   ],
   "note": "Holds for nodes in every history; for arrays if allocators propagate on swap and move assignment (deallocation) or if no container is made from one with another allocator (both claims). Otherwise false of the code: index copy constructors allocate their arrays with the allocator of the source."
  },
  {
   "property": "C53",
   "status": "proved",
   "theorems": [
    "MI.Alloc.C53_handles_safe",
    "MI.Alloc.C53_handle_allocator",
    "MI.Alloc.C53_handle_moves"
   ],
   "note": "Every history, all traits; assignments and swaps with the preconditions of the standard."
  },
  {
   "property": "C54",
   "status": "proved",
   "theorems": [
    "MI.Alloc.C54_construct",
    "MI.Alloc.C54_assign"
   ],
   "note": "All traits and allocators."
  },
  {
   "property": "C55",
   "status": "proved",
   "theorems": [
    "MI.Cont.C55_check",
    "MI.Cont.C55_assert",
    "MI.Cont.C55_meaning"
   ],
   "note": "Every reachable state of programs, every throw point; the meaning of a successful check for arbitrary states."
  },
  {
   "property": "C56",
   "status": "proved",
   "theorems": [
    "MI.Hash.C56_local",
    "MI.Hash.C56_bucket",
    "MI.Hash.C56_partition",
    "MI.Hash.C56_comparisons",
    "MI.Hash.C56_found",
    "MI.Cont.C56_container"
   ],
   "note": "Any number of buckets and elements; containers of programs."
  },
  {
   "property": "C57",
   "status": "proved",
   "theorems": [
    "MI.Safe.C57_place",
    "MI.Safe.C57_deref",
    "MI.Safe.C57_increment",
    "MI.Safe.C57_decrement",
    "MI.Safe.C57_advance",
    "MI.Safe.C57_equal",
    "MI.Safe.C57_minus",
    "MI.Safe.C57_element",
    "MI.Safe.C57_position",
    "MI.Safe.C57_range",
    "MI.Safe.C57_relocate",
    "MI.Safe.C57_relocate_range",
    "MI.Safe.C57_splice",
    "MI.Safe.C57_project",
    "MI.Safe.C57_legal",
    "MI.Safe.C57_legal_range",
    "MI.Safe.C57_legal_relocate",
    "MI.Safe.C57_position_error",
    "MI.Safe.C57_element_error",
    "MI.Safe.C57_range_error",
    "MI.Safe.C57_relocate_error",
    "MI.Safe.C57_relocate_range_error",
    "MI.Safe.C57_splice_error",
    "MI.Safe.C57_project_error",
    "MI.Safe.C57_loaded",
    "MI.Safe.C57_loaded_equal",
    "MI.Safe.C57_loaded_range"
   ],
   "note": "Iterators loaded from an archive are unchecked by design: they pass every check (C57_loaded*). Checks of whole-container arguments (splice of another container, equal allocators) are not modelled."
  },
  {
   "property": "C58",
   "status": "proved",
   "theorems": [
    "MI.Cont.C58_insert",
    "MI.Cont.C58_no_memory"
   ],
   "note": "Value insertion with or without hint, every reachable state. (Emplacement constructs the element first.)"
  },
  {
   "property": "C59",
   "status": "proved",
   "theorems": [
    "MI.Cont.C59_insert",
    "MI.Cont.C59_insert_handle",
    "MI.Cont.C59_insert_range",
    "MI.Cont.C59_resize_shrink",
    "MI.Cont.C59_resize_grow",
    "MI.Cont.C59_resize_size",
    "MI.Cont.C59_assign"
   ],
   "note": "Any mix of indices, every throw point."
  },
  {
   "property": "C60",
   "status": "proved",
   "theorems": [
    "MI.Cont.C60_splice_one",
    "MI.Cont.C60_splice_one_copy",
    "MI.Cont.C60_splice_range",
    "MI.Cont.C60_splice_range_copy"
   ],
   "note": "Any mix of indices, equal and unequal allocators, every throw point but for the case that is C43."
  },
  {
   "property": "C61",
   "status": "proved",
   "theorems": [
    "MI.Cont.C61_remove_if",
    "MI.Cont.C61_remove_if_throws",
    "MI.Cont.C61_unique",
    "MI.Cont.C61_unique_throws"
   ],
   "note": "Any mix of indices; predicates with state, throwing at any call. The arguments of unique's predicate are exchanged in random access indices (C31)."
  },
  {
   "property": "C62",
   "status": "proved",
   "theorems": [
    "MI.Cont.C62_merge",
    "MI.Cont.C62_merge_sorted",
    "MI.Cont.C62_merge_self"
   ],
   "note": "Any mix of indices, equal and unequal allocators, every throw point."
  },
  {
   "property": "C63",
   "status": "proved",
   "theorems": [
    "MI.Mt.C63_no_race",
    "MI.Mt.C63_no_crash",
    "MI.Mt.C63_as_if_alone",
    "MI.Mt.C63_lists",
    "MI.Mt.C63_unlocked",
    "MI.Mt.C63_no_deadlock",
    "MI.Mt.C63_progress",
    "MI.Mt.C63_ends",
    "MI.Mt.C63_complete",
    "MI.Mt.C63_drop_is_not_private"
   ],
   "note": "Any number of threads, all interleavings of single memory accesses. Only the memory of safe mode is modelled: containers themselves are ordinary data that readers do not write to."
  },
  {
   "property": "C64",
   "status": "proved",
   "theorems": [
    "MI.Ord.C64_bounds",
    "MI.Ord.C64_find",
    "MI.Ord.C64_equal_range",
    "MI.Ord.C64_range",
    "MI.Ord.C64_ranked",
    "MI.Ord.C64_insert",
    "MI.Ord.C64_hint",
    "MI.Ord.C64_right_hint_unique",
    "MI.Ord.C64_right_hint_nonunique",
    "MI.Ord.C64_in_place",
    "MI.Seq.C64_sort",
    "MI.Seq.C64_merge",
    "MI.Seq.C64_remove_if",
    "MI.Seq.C64_unique"
   ],
   "note": "All sizes, all user functions, consistent or not. Comparisons in hashed indices are C56."
  },
  {
   "property": "C65",
   "status": "proved",
   "theorems": [
    "MI.Rnd.C65_push_back",
    "MI.Rnd.C65_insert",
    "MI.Rnd.C65_erase",
    "MI.Rnd.C65_relocate",
    "MI.Rnd.C65_relocate_range",
    "MI.Rnd.C65_history",
    "MI.Rnd.C65_push_backs",
    "MI.Rnd.C65_erase_empty_range"
   ],
   "note": "All sizes and histories; loading from archives is not counted."
  },
  {
   "property": "C66",
   "status": "proved",
   "theorems": [
    "MI.Hash.C66_find",
    "MI.Hash.C66_equal_range",
    "MI.Hash.C66_insert",
    "MI.Hash.C66_modify",
    "MI.Hash.C66_worst_case",
    "MI.Hash.C66_unique",
    "MI.Hash.C66_rehash"
   ],
   "note": "Calls of user functions are counted, not nodes visited; every size, hash function and answer of the predicate."
  },
  {
   "property": "C67",
   "status": "partial",
   "theorems": [
    "MI.Hash.C67_history_partial",
    "MI.Hash.C67_insertions_partial",
    "MI.Hash.C67_rehash_partial",
    "MI.Hash.C67_grows_partial",
    "MI.Hash.C67_grows_full_false"
   ],
   "note": "Proved up to 2^24 elements and buckets; false of the code beyond (C67_grows_full_false): rounding to float. The maximum load factor stays the same."
  },
  {
   "property": "C68",
   "status": "proved",
   "theorems": [
    "MI.Ser.C68_iterators",
    "MI.Ser.C68_foreign",
    "MI.Ser.C68_any_archive",
    "MI.Ser.C68_version0"
   ],
   "note": "C68_version0 is about the older format of hashed iterators; the others are about the present one."
  },
  {
   "property": "C69",
   "status": "proved",
   "theorems": [
    "MI.Ord.C69_log",
    "MI.Ord.C69_container",
    "MI.Ord.C69_amortized",
    "MI.Ord.C69_rebalancing",
    "MI.Ord.C69_traversal",
    "MI.Ord.C69_advance"
   ],
   "note": "Rounds of loops are counted, for an index that is the only one of its container; unique and non-unique."
  },
  {
   "property": "C70",
   "status": "partial",
   "theorems": [
    "MI.Ord.C70_ends_partial",
    "MI.Ord.C70_in_place_partial",
    "MI.Ord.C70_hinted_full_false",
    "MI.Ord.C70_deletion_full_false",
    "MI.Ord.C70_in_place_full_false"
   ],
   "note": "True at the ends; the full claims are false of the code if steps are counted (comparisons are C64): a walk to a neighbour is not constant."
  },
  {
   "property": "C71",
   "status": "proved",
   "theorems": [
    "MI.Key.C71_chained",
    "MI.Cont.C71_modify_key",
    "MI.Cont.C71_modify_key_rollback"
   ],
   "note": "Any mix of indices. Elements are taken together with the object they point to: objects shared by two elements are not covered."
  },
  {
   "property": "C72",
   "status": "proved",
   "theorems": [
    "MI.Cont.C72_no_exception",
    "MI.Cont.C72_exception",
    "MI.Cont.C72_not_swallowed",
    "MI.Cont.C72_insert",
    "MI.Cont.C72_emplace",
    "MI.Cont.C72_insert_node",
    "MI.Cont.C72_transfer",
    "MI.Cont.C72_replace",
    "MI.Cont.C72_modify",
    "MI.Cont.C72_modify_rollback",
    "MI.Cont.C72_rehash",
    "MI.Cont.C72_calls",
    "MI.Cont.C72_only_indices",
    "MI.Cont.C72_hash_once"
   ],
   "note": "Lookups are in C64 and C66. Rollback functions that do not restore the keys: see C08. Copying a container calls no user function but copies of them; exceptions there are in C36."
  },
  {
   "property": "C73",
   "status": "proved",
   "theorems": [
    "MI.Ord.C73_nth",
    "MI.Ord.C73_rank",
    "MI.Ord.C73_lower_bound_rank",
    "MI.Ord.C73_upper_bound_rank",
    "MI.Ord.C73_find_rank",
    "MI.Ord.C73_equal_range_rank",
    "MI.Ord.C73_count",
    "MI.Ord.C73_range_rank",
    "MI.Ord.C73_updates",
    "MI.Ord.C73_updates_nth"
   ],
   "note": "Rounds of loops, not machine steps. The same results without the counting are C18 and C19."
  },
  {
   "property": "C74",
   "status": "partial",
   "theorems": [
    "MI.Hash.C74_find",
    "MI.Hash.C74_count",
    "MI.Hash.C74_equal_range",
    "MI.Hash.C74_insert",
    "MI.Hash.C74_erase",
    "MI.Hash.C74_modify_unique",
    "MI.Hash.C74_modify_partial",
    "MI.Hash.C74_modify_full_false"
   ],
   "note": "Rounds of loops, not machine steps. The documented complexity of modification, as the definition ModifyDistinct says it, is false of the code for non-unique indices (C74_modify_full_false); what does hold is C74_modify_partial: one round more for each equivalent element."
  },
  {
   "property": "C75",
   "status": "partial",
   "theorems": [
    "MI.Cont.C75_find",
    "MI.Cont.C75_copy_partial",
    "MI.Cont.C75_hashed_full_false"
   ],
   "note": "Rounds of loops, not machine steps; the time std::sort takes is a parameter, as the standard specifies it. The documented complexity of copying a hashed index, as the definition HashedCopyNLogN says it, is false of the code (C75_hashed_full_false); what does hold is C75_copy_partial, which adds the number of buckets. The increments of the iterator that runs through the original are C69_traversal."
  },
  {
   "property": "C76",
   "status": "proved",
   "theorems": [
    "MI.Cont.C76_same_history",
    "MI.Cont.C76_sequences",
    "MI.Cont.C76_results",
    "MI.Cont.C76_rejected",
    "MI.Cont.C76_group_order_full_false"
   ],
   "note": "The operations compared are those of Match: all but sort, merge, remove, unique and place, which have claims of their own. Both programs are supposed to get through without exceptions, except in tuning. The order of equivalent elements of a hashed index after changes of keys is not determined by the history (C76_group_order_full_false), and the documentation does not say it is."
  },
  {
   "property": "C77",
   "status": "proved",
   "theorems": [
    "MI.Cont.C77_no_ub",
    "MI.Cont.C77_intact",
    "MI.Cont.C77_memory",
    "MI.Cont.C77_effects",
    "MI.Cont.C77_find",
    "MI.Cont.C77_range",
    "MI.Cont.C77_ranks",
    "MI.Cont.C77_hashed",
    "MI.Cont.C77_rollback",
    "MI.Cont.C77_non_unique_full_false",
    "MI.Cont.C77_rollback_full_false",
    "MI.Ser.C77_load",
    "MI.Ser.C77_load_index"
   ],
   "note": "The documentation promises nothing for such functions. Proved for containers of ordered, ranked, hashed_unique, sequenced and random access indices; refuted for hashed_non_unique (C77_non_unique_full_false). Within one operation hash values are those of some function of the value; between operations values and hash values may change arbitrarily. For modify with rollback no call may throw during the operation (C77_rollback says what happens otherwise; C77_rollback_full_false; cf. C08). C77_load, C77_load_index: deserialization."
  },
  {
   "property": "C78",
   "status": "proved",
   "theorems": [
    "MI.Ideal.C78_agrees",
    "MI.Ideal.C78_returns",
    "MI.Ideal.C78_throws",
    "MI.Ideal.C78_total",
    "MI.Ideal.C78_size"
   ],
   "note": "The order of a hashed index is not determined by the ideal. Copying is considered for containers whose first index is not hashed, so that the order in which copies are made is determined; C76 covers the rest. sort requires a strict weak order, a std::stable_sort that meets its specification and, for sequenced indices, whose sort is not stable (C28), no equivalent elements."
  },
  {
   "property": "C79",
   "status": "proved",
   "theorems": [
    "MI.Cont.C79_insert",
    "MI.Cont.C79_insert_at",
    "MI.Cont.C79_resize",
    "MI.Cont.C79_assign",
    "MI.Cont.C79_assign_own",
    "MI.Cont.C79_insert_from"
   ],
   "note": "Within one insertion the value is read before anything but the order of hashed indices changes; this is not modelled separately."
  },
  {
   "property": "C80",
   "status": "partial",
   "theorems": [
    "MI.Cont.C80_ordered_partial",
    "MI.Cont.C80_hashed_partial",
    "MI.Cont.C80_hashed_own",
    "MI.Cont.C80_ordered_full_false",
    "MI.Cont.C80_hashed_full_false",
    "MI.Cont.C80_hash_of_key_false"
   ],
   "note": "Proved if calls that convert the argument convert it to a key and, for hash functions given to the lookup, if the key has the same hash value as the argument. Both are needed (negations proved): the code replaces a conversion chosen by overload resolution by a conversion to a key, and calls the hash function with the key."
  },
  {
   "property": "C81",
   "status": "proved",
   "theorems": [
    "MI.Ideal.C81_answers",
    "MI.Ideal.C81_one_answer",
    "MI.Ideal.C81_indistinguishable"
   ],
   "note": ""
  },
  {
   "property": "C82",
   "status": "proved",
   "theorems": [
    "MI.Cont.C82_insert",
    "MI.Cont.C82_replace"
   ],
   "note": ""
  },
  {
   "property": "C83",
   "status": "proved",
   "theorems": [
    "MI.Cont.C83_destroy",
    "MI.Cont.C83_clear"
   ],
   "note": ""
  },
  {
   "property": "C84",
   "status": "proved",
   "theorems": [
    "MI.Seq.C84_sort",
    "MI.Seq.C84_reverse",
    "MI.Seq.C84_remove_if",
    "MI.Seq.C84_unique",
    "MI.Seq.C84_merge",
    "MI.Cont.C84_rearrange"
   ],
   "note": ""
  },
  {
   "property": "C85",
   "status": "partial",
   "theorems": [
    "MI.Ord.C85_any_range",
    "MI.Ord.C85_sorted_partial",
    "MI.Ord.C85_linear_full_false",
    "MI.Cont.C85_construct"
   ],
   "note": "Linear in comparisons and rebalancing; the full claim is false of the code if steps are counted: moving the hint on from the last element is logarithmic."
  },
  {
   "property": "C86",
   "status": "proved",
   "theorems": [
    "MI.Meta.C86_accepted",
    "MI.Meta.C86_number",
    "MI.Meta.C86_tag",
    "MI.Meta.C86_ordered_forms",
    "MI.Meta.C86_hashed_forms"
   ],
   "note": ""
  },
  {
   "property": "C87",
   "status": "proved",
   "theorems": [
    "MI.Meta.C87_single",
    "MI.Meta.C87_composite",
    "MI.Meta.C87_accepted",
    "MI.Meta.C87_diamond"
   ],
   "note": ""
  },
  {
   "property": "C88",
   "status": "proved",
   "theorems": [
    "MI.Ser.C88_load",
    "MI.Ser.C88_returns",
    "MI.Ser.C88_throws"
   ],
   "note": ""
  },
  {
   "property": "C89",
   "status": "proved",
   "theorems": [
    "MI.Ser.C89_time",
    "MI.Ser.C89_same",
    "MI.Ser.C89_size",
    "MI.Ser.C89_in_order",
    "MI.Ser.C89_read",
    "MI.Ser.C89_read_in_order"
   ],
   "note": ""
  },
  {
   "property": "C90",
   "status": "proved",
   "theorems": [
    "MI.Guard.C90_member",
    "MI.Guard.C90_at_most_once",
    "MI.Guard.C90_once",
    "MI.Guard.C90_when",
    "MI.Guard.C90_no_throw",
    "MI.Guard.C90_idle",
    "MI.Guard.C90_dismissed"
   ],
   "note": ""
  },
  {
   "property": "C91",
   "status": "proved",
   "theorems": [
    "MI.Cont.C91_position",
    "MI.Cont.C91_project",
    "MI.Cont.C91_iterator_to",
    "MI.Cont.C91_different",
    "MI.Cont.C91_next",
    "MI.Cont.C91_prev"
   ],
   "note": ""
  },
  {
   "property": "C92",
   "status": "proved",
   "theorems": [
    "MI.Ser.Head.C92_heads",
    "MI.Ser.Head.C92_present",
    "MI.Ser.Head.C92_version_once",
    "MI.Ser.Head.C92_conditions"
   ],
   "note": "How older versions of the library wrote heads is taken from the comments in the code; only the present writer is in the repository."
  },
  {
   "property": "C93",
   "status": "partial",
   "theorems": [
    "MI.Meta.C93_sound",
    "MI.Meta.C93_complete_partial",
    "MI.Meta.C93_complete_full_false",
    "MI.Meta.C93_default",
    "MI.Meta.C93_promotes",
    "MI.Meta.C93_promoted",
    "MI.Meta.C93_lookups",
    "MI.Meta.C93_promotes_full_false"
   ],
   "note": "The full claim is false of the code: an overload with forwarding references takes arguments as they are, but is held to convert them. Proved for all other overloads. Missing: nothing else."
  }
 ]
}