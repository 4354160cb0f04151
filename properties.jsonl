{"id": "C01", "title": "All indices always hold the same elements", "statement": "After any sequence of public operations on a container (insertions, hinted insertions, erasures, extractions, replace, modify, modify with rollback that does not throw during rearrangement, rearrangements of sequenced/random access indices, rehashes, clear), whether each operation succeeded, was rejected or threw, every index traverses exactly the same elements, each exactly once, and size() is that number.", "quantifier": "every list of index specifiers (any number and mix of ordered/hashed unique/non-unique, sequenced, random access), every value type, key comparison and hash, every history of operations, every choice of user calls that throw", "why_tests_cant": "the number of histories, index mixes and throw points is unbounded; a missed undo in one index only shows after a particular combination", "anchors": ["include/boost/multi_index_container.hpp:insert_,erase_,modify_,replace_", "include/boost/multi_index/detail/index_base.hpp", "include/boost/multi_index/detail/ord_index_impl.hpp:insert_,extract_,modify_,replace_", "include/boost/multi_index/hashed_index.hpp", "include/boost/multi_index/sequenced_index.hpp", "include/boost/multi_index/random_access_index.hpp"]}
{"id": "C02", "title": "Insertion is all-or-nothing and reports a real culprit", "statement": "Inserting a value succeeds if and only if no unique index already holds an element with an equivalent key; on success the value is in every index and the returned position is the new element; on rejection nothing is added or removed anywhere, no index changes order except that a hashed index may have been rehashed, and the returned position is an element of the container whose key is equivalent in some unique index.", "quantifier": "every reachable container, every value", "why_tests_cant": "must hold for every container content and every index mix, including rejections by the last index after the first ones accepted", "anchors": ["include/boost/multi_index_container.hpp:insert_", "include/boost/multi_index/detail/ord_index_impl.hpp:insert_,link_point", "include/boost/multi_index/hashed_index.hpp:insert_,link_point"]}
{"id": "C03", "title": "Unique indices never hold equivalent keys", "statement": "After any history no unique ordered or unique hashed index contains two elements whose keys are equivalent for that index.", "quantifier": "every history of operations and throw points, every strict weak order / equality-hash pair", "why_tests_cant": "uniqueness can be broken by one rare path (modify, replace, rollback, transfer, hinted insertion)", "anchors": ["include/boost/multi_index/detail/ord_index_impl.hpp:link_point,hinted_link_point,in_place", "include/boost/multi_index/hashed_index.hpp:link_point,in_place"]}
{"id": "C04", "title": "Ordered indices are always sorted", "statement": "After any history the traversal of an ordered index is sorted with respect to its key comparison (strictly for unique indices).", "quantifier": "every history, strict weak order, hint position and throw point", "why_tests_cant": "sortedness must survive all interleavings of modify, replace, hinted insertion and rollback", "anchors": ["include/boost/multi_index/detail/ord_index_impl.hpp:insert_,hinted_link_point,modify_,replace_", "include/boost/multi_index/detail/ord_index_node.hpp:link,rebalance_for_extract"]}
{"id": "C05", "title": "Insertion has the strong exception guarantee", "statement": "If any user operation (key extraction, comparison, hashing, equality, allocation, value construction) throws during an insertion or emplacement, the container holds exactly the same elements in the same order in every index (up to rehashing of hashed indices), and no node leaks.", "quantifier": "every container, value and every point at which a user call may throw", "why_tests_cant": "throw points multiply with index count and tree depth", "anchors": ["include/boost/multi_index_container.hpp:insert_,emplace_,insert_ref_", "include/boost/multi_index/detail/index_base.hpp:insert_", "include/boost/multi_index/hashed_index.hpp:insert_,unchecked_rehash"]}
{"id": "C06", "title": "replace succeeds exactly when allowed and is otherwise a no-op", "statement": "replace(position,x) returns true iff no unique index has an element other than *position with a key equivalent to x; then the element holds x and every index satisfies its invariant; if it returns false or a user operation throws, the container is exactly as before, including order in every index. When the new key is equivalent to the old, the element keeps its position in that ordered index.", "quantifier": "every container, position, value, throw point", "why_tests_cant": "the unlink/relink/restore dance must be exact in every index for every banning index", "anchors": ["include/boost/multi_index_container.hpp:replace_", "include/boost/multi_index/detail/ord_index_impl.hpp:replace_", "include/boost/multi_index/hashed_index.hpp:replace_", "include/boost/multi_index/detail/index_base.hpp:replace_"]}
{"id": "C07", "title": "modify keeps the container valid or erases exactly that element", "statement": "modify(position,mod): afterwards either the element is in every index at a valid position with its modified value (returns true), or the element has been removed from every index and destroyed (returned false because another element has an equivalent key in a unique index, or threw because a user operation threw); all other elements keep their relative order in every index.", "quantifier": "every container, element, modifier, throw point", "why_tests_cant": "which index bans and where a call throws both matter; earlier and later indices take different undo paths", "anchors": ["include/boost/multi_index_container.hpp:modify_", "include/boost/multi_index/detail/ord_index_impl.hpp:modify_", "include/boost/multi_index/hashed_index.hpp:modify_", "include/boost/multi_index/sequenced_index.hpp:modify_", "include/boost/multi_index/random_access_index.hpp:modify_"]}
{"id": "C08", "title": "modify with rollback restores the element", "statement": "modify(position,mod,back): if rearrangement succeeds the element is kept with its new value; if it is banned and back restores the value, the container is as before the call; if back does not restore it, the element is erased from every index; if a user operation throws during rearrangement and back restores the value, the container is as before the call and the exception propagates.", "quantifier": "every container, element, modifier, rollback, throw point", "why_tests_cant": "documented strong guarantee quantifies over all throw points", "anchors": ["include/boost/multi_index_container.hpp:modify_(Modifier&,Rollback&,final_node_type*)", "include/boost/multi_index/detail/ord_index_impl.hpp:modify_rollback_,check_rollback_", "include/boost/multi_index/hashed_index.hpp:modify_rollback_,check_rollback_"]}
{"id": "C09", "title": "Erasure and extraction remove exactly one element", "statement": "erase(position) and extract(position) remove that element from every index and nothing else; the order of remaining elements in every index is unchanged; erase returns the following element.", "quantifier": "every container and position", "why_tests_cant": "the pointer surgery has many cases depending on structure", "anchors": ["include/boost/multi_index_container.hpp:erase_,extract_", "include/boost/multi_index/detail/ord_index_node.hpp:rebalance_for_extract", "include/boost/multi_index/detail/hash_index_node.hpp:unlink", "include/boost/multi_index/detail/seq_index_node.hpp:unlink", "include/boost/multi_index/detail/rnd_index_ptr_array.hpp:erase"]}
{"id": "C10", "title": "Node ownership: no leak, no double free", "statement": "At any moment every allocated node is either in exactly one container or owned by exactly one node handle; a rejected emplacement destroys its node; a rejected node-handle insertion keeps the node in the handle; clear and destruction free all nodes exactly once.", "quantifier": "every history over containers and node handles, every throw point", "why_tests_cant": "leaks and double frees show only on specific failure paths", "anchors": ["include/boost/multi_index_container.hpp:emplace_,insert_nh_,extract_,clear_,delete_all_nodes_", "include/boost/multi_index/detail/node_handle.hpp"]}
{"id": "C11", "title": "merge/splice transfers conserve elements", "statement": "merging an index into a container moves each source element to the destination exactly when no destination unique index bans it; every element ends in exactly one of the two containers, elements are never copied or destroyed, and if a user operation throws part-way both containers remain valid and the element in flight stays in the source.", "quantifier": "every pair of containers, every source range, every throw point", "why_tests_cant": "failure in the middle of a transfer involves partially processed containers", "anchors": ["include/boost/multi_index_container.hpp:transfer_,transfer_range_,extract_for_transfer_", "include/boost/multi_index/detail/ord_index_impl.hpp:merge", "include/boost/multi_index/detail/index_base.hpp:insert_(transfer)"]}
{"id": "C12", "title": "Ordered lookup is exact for every compatible key", "statement": "find, lower_bound, upper_bound, equal_range and count on an ordered index return exactly the elements defined by the (compatible) comparison: lower_bound the first element not less than the key, upper_bound the first greater, equal_range both, count the number of equivalents, find an equivalent element (the first one) or end().", "quantifier": "every tree shape, every compatible key and comparison", "why_tests_cant": "correctness depends on all shapes and keys, including keys of other types", "anchors": ["include/boost/multi_index/detail/ord_index_ops.hpp", "include/boost/multi_index/detail/ord_index_impl.hpp:find,count,lower_bound,upper_bound,equal_range"]}
{"id": "C13", "title": "range queries are exact", "statement": "range(lower,upper) returns exactly the elements satisfying both bounds (monotone predicates), and an empty range at the first element satisfying lower (or at the end) when no element satisfies both; unbounded sides impose no restriction.", "quantifier": "every tree, every pair of compatible bounding predicates", "why_tests_cant": "all tree shapes and predicate pairs, including crossing bounds", "anchors": ["include/boost/multi_index/detail/ord_index_impl.hpp:range,lower_range,upper_range", "include/boost/multi_index/detail/unbounded.hpp"]}
{"id": "C14", "title": "Equivalent elements keep insertion order; hints insert as close as possible", "statement": "In an ordered non-unique index an unhinted insertion places the element after all equivalent ones; a hinted insertion places it at the sorted position closest to just before the hint; for unique indices the hint never changes the result.", "quantifier": "every tree, value and hint position (including end())", "why_tests_cant": "the result depends on every combination of hint and value", "anchors": ["include/boost/multi_index/detail/ord_index_impl.hpp:link_point,hinted_link_point,lower_link_point"]}
{"id": "C15", "title": "Ordered index trees are balanced", "statement": "After any sequence of insertions, erasures and relinkings the tree of an ordered index satisfies the red-black conditions, so its height is at most 2*log2(n+1): lookups take a logarithmic number of comparisons.", "quantifier": "every history of link/unlink/restore", "why_tests_cant": "balance is a global property of every history", "anchors": ["include/boost/multi_index/detail/ord_index_node.hpp:rebalance,rebalance_for_extract,link,restore"]}
{"id": "C16", "title": "Tree surgery preserves the element sequence", "statement": "Linking a node at a given side of a node inserts it exactly there in the traversal order; unlinking removes exactly that node; restore puts it back exactly before the remembered successor; first/last element shortcuts remain right.", "quantifier": "every tree shape and node", "why_tests_cant": "rotations and the two-children deletion case depend on shapes", "anchors": ["include/boost/multi_index/detail/ord_index_node.hpp:rotate_left,rotate_right,link,rebalance_for_extract,restore"]}
{"id": "C17", "title": "Iterators step through ordered indices in order", "statement": "For every element of an ordered index, ++ moves to the next element in traversal order (end() after the last), -- to the previous (from end() to the last).", "quantifier": "every tree shape and position", "why_tests_cant": "each position in every shape takes a different path", "anchors": ["include/boost/multi_index/detail/ord_index_node.hpp:increment,decrement"]}
{"id": "C18", "title": "Ranked indices: rank and nth are exact inverses", "statement": "In a ranked index nth(n) is the n-th element in order (end() when n>=size), rank(it) is the number of elements before it (size() for end()), nth(rank(it))==it; this holds after any history of insertions and erasures.", "quantifier": "every history, every n", "why_tests_cant": "subtree counts must be maintained by every rotation and every splice-out case", "anchors": ["include/boost/multi_index/detail/rnk_index_ops.hpp", "include/boost/multi_index/ranked_index.hpp"]}
{"id": "C19", "title": "Ranked lookups count exactly", "statement": "find_rank, lower_bound_rank, upper_bound_rank, equal_range_rank, count and range_rank return the positions of the corresponding iterators.", "quantifier": "every tree, every compatible key", "why_tests_cant": "depends on all shapes and keys", "anchors": ["include/boost/multi_index/detail/rnk_index_ops.hpp", "include/boost/multi_index/ranked_index.hpp:count,range_rank"]}
{"id": "C20", "title": "Hashed lookup is exact", "statement": "In a hashed index find, count and equal_range return exactly the elements with a key equal to the given one, after any history and any rehash.", "quantifier": "every history, hash function consistent with equality, bucket count", "why_tests_cant": "collisions, group shapes and rehash timing are unbounded", "anchors": ["include/boost/multi_index/hashed_index.hpp:find,count,equal_range,find_bucket", "include/boost/multi_index/detail/hash_index_node.hpp"]}
{"id": "C21", "title": "Hashed non-unique: equivalent elements stay together", "statement": "In a hashed non-unique index elements with equal keys are always contiguous in traversal order, and equal_range delimits exactly them, after any history of insertions, erasures, modifications and rehashes.", "quantifier": "every history", "why_tests_cant": "group-link pointer surgery has many cases (group sizes 1,2,3+; first/last of bucket)", "anchors": ["include/boost/multi_index/detail/hash_index_node.hpp:hashed_index_node_alg<...,hashed_non_unique_tag>", "include/boost/multi_index/hashed_index.hpp:equal_range,last_of_range,end_of_range"]}
{"id": "C22", "title": "Rehashing preserves content and survives throwing hash functions", "statement": "rehash/reserve and automatic rehashing keep exactly the same elements (and keep equivalent elements together and in order); if the hash function throws midway the index is as before.", "quantifier": "every container, new bucket count, throw point", "why_tests_cant": "throw at any of n hash computations with arbitrary chains", "anchors": ["include/boost/multi_index/hashed_index.hpp:unchecked_rehash,rehash,reserve,reserve_for_insert"]}
{"id": "C23", "title": "Hashed unlink/undo restores the exact structure", "statement": "When a replace or modify-with-rollback on a hashed index unlinks a node and is then banned, undoing leaves every link as it was.", "quantifier": "every structure, every node", "why_tests_cant": "undo log correctness must hold for all unlink cases", "anchors": ["include/boost/multi_index/detail/hash_index_node.hpp:unlink_undo_assigner,unlink,unlink_undo", "include/boost/multi_index/hashed_index.hpp:replace_,modify_rollback_"]}
{"id": "C24", "title": "Bucket selection is total and in range", "statement": "The bucket count obtained for a requested size is at least the request (or the largest table entry), it is taken from a strictly increasing table, and every hash value maps to a bucket below bucket_count().", "quantifier": "every requested size and hash value", "why_tests_cant": "ranges over all 64-bit values", "anchors": ["include/boost/multi_index/detail/bucket_array.hpp:sizes,size_index,position"]}
{"id": "C25", "title": "Hashed index equality is equality of contents", "statement": "operator== of hashed indices is true iff both have the same elements up to order (unique: each element of one is found in the other with equal value; non-unique: each group of equivalent elements is a permutation of the other's group).", "quantifier": "every pair of hashed indices", "why_tests_cant": "depends on all traversal orders and collision patterns", "anchors": ["include/boost/multi_index/hashed_index.hpp:equals"]}
{"id": "C26", "title": "Sequenced indices behave as lists for positional insertion and removal", "statement": "insert(position,x), push_front/back, erase, pop, resize, assign on a sequenced index have exactly the std::list effect on the traversal order when the insertion is accepted, and leave the order unchanged when rejected.", "quantifier": "every list and position", "why_tests_cant": "pointer relinking must be right for every position including begin/end/self", "anchors": ["include/boost/multi_index/sequenced_index.hpp:insert,push_front,push_back,erase,resize", "include/boost/multi_index/detail/seq_index_node.hpp:link,unlink,relink"]}
{"id": "C27", "title": "Sequenced rearrangements have exact list semantics", "statement": "relocate(position,i), relocate(position,first,last), same-container splice, reverse and rearrange on a sequenced index produce exactly the documented order and lose no element.", "quantifier": "every list, position and range not containing position", "why_tests_cant": "relinking ranges depends on adjacency cases", "anchors": ["include/boost/multi_index/sequenced_index.hpp:relocate,splice,reverse,rearrange", "include/boost/multi_index/detail/seq_index_node.hpp:relink,reverse"]}
{"id": "C28", "title": "Sequenced sort sorts and is stable", "statement": "sort(comp) on a sequenced index rearranges it into sorted order, keeps every element, and keeps the relative order of equivalent elements.", "quantifier": "every list and strict weak order", "why_tests_cant": "stability and order must hold for every input length and pattern", "anchors": ["include/boost/multi_index/detail/seq_index_ops.hpp:sequenced_index_sort,sequenced_index_collate"]}
{"id": "C29", "title": "Throwing comparators during sequenced sort/merge lose nothing", "statement": "If the comparison throws at any call during sort, merge, remove_if or unique on a sequenced index, every element not deliberately erased is still linked exactly once.", "quantifier": "every list, every throw point", "why_tests_cant": "throw at any of n log n comparisons", "anchors": ["include/boost/multi_index/detail/seq_index_ops.hpp:sequenced_index_sort,sequenced_index_merge"]}
{"id": "C30", "title": "Sequenced merge is a stable merge", "statement": "merge of two sorted sequenced indices, when all transfers are accepted, yields a sorted list of all elements in which equivalent elements keep their relative order, those of *this first; x is left empty.", "quantifier": "every pair of sorted lists", "why_tests_cant": "all interleavings", "anchors": ["include/boost/multi_index/detail/seq_index_ops.hpp:sequenced_index_merge", "include/boost/multi_index/sequenced_index.hpp:merge"]}
{"id": "C31", "title": "remove_if and unique delete exactly the specified elements", "statement": "On sequenced and random access indices remove_if(pred) erases exactly the elements satisfying pred, unique(pred) erases exactly each element equivalent to the last kept one; the survivors keep their order.", "quantifier": "every list and predicate", "why_tests_cant": "all patterns of hits", "anchors": ["include/boost/multi_index/detail/seq_index_ops.hpp:sequenced_index_remove,sequenced_index_unique", "include/boost/multi_index/detail/rnd_index_ops.hpp:random_access_index_remove,random_access_index_unique"]}
{"id": "C32", "title": "Random access positions are always exact", "statement": "In a random access index, after any history, begin()+n refers to the n-th element, it-begin() is the position of it, and ++/-- step to neighbours; operator[] agrees.", "quantifier": "every history of insert/erase/relocate/reserve/shrink", "why_tests_cant": "each node's back pointer must be updated by every operation", "anchors": ["include/boost/multi_index/detail/rnd_index_node.hpp", "include/boost/multi_index/detail/rnd_index_ptr_array.hpp", "include/boost/multi_index/random_access_index.hpp", "include/boost/multi_index/detail/rnd_node_iterator.hpp"]}
{"id": "C33", "title": "Random access relocation is a rotation", "statement": "relocate(position,first,last) on a random access index moves the block before position keeping all relative orders (a rotation), for every block size; relocate(position,i) likewise.", "quantifier": "every array length, block and position outside the block", "why_tests_cant": "the in-place algorithm walks gcd(n,m) permutation cycles; correctness is number-theoretic", "anchors": ["include/boost/multi_index/detail/rnd_index_node.hpp:relocate,extract"]}
{"id": "C34", "title": "Random access algorithms are exact", "statement": "sort, merge, reverse, rearrange, splice from another index of the same container, on a random access index give exactly the documented order and keep node back pointers exact.", "quantifier": "every array and comparator", "why_tests_cant": "all patterns", "anchors": ["include/boost/multi_index/detail/rnd_index_ops.hpp", "include/boost/multi_index/detail/rnd_index_node.hpp:reverse,gather_nulls", "include/boost/multi_index/random_access_index.hpp:rearrange,internal_splice"]}
{"id": "C35", "title": "Random access capacity is never exceeded", "statement": "After any history size()<=capacity(); an insertion reserves room before touching any other index, so the final link cannot fail; reserve never shrinks, shrink_to_fit makes capacity equal size, and none changes the order.", "quantifier": "every history", "why_tests_cant": "growth policy over all sizes", "anchors": ["include/boost/multi_index/detail/rnd_index_ptr_array.hpp:room_for_one,reserve,shrink_to_fit,set_capacity"]}
{"id": "C36", "title": "Copying reproduces every index", "statement": "A copy-constructed or copy-assigned container has equal elements in the same order in every index, shares no node with the source and leaves the source unchanged; if copying throws, all partial copies are released.", "quantifier": "every container and throw point", "why_tests_cant": "all index mixes and shapes", "anchors": ["include/boost/multi_index_container.hpp:copy_construct_from,operator=", "include/boost/multi_index/detail/copy_map.hpp", "include/boost/multi_index/detail/ord_index_impl.hpp:copy_", "include/boost/multi_index/hashed_index.hpp:copy_", "include/boost/multi_index/sequenced_index.hpp:copy_", "include/boost/multi_index/random_access_index.hpp:copy_"]}
{"id": "C37", "title": "Swap and move exchange contents exactly", "statement": "swap exchanges the contents, order and size of two containers in every index without touching elements; move construction transfers everything and leaves the source empty and valid.", "quantifier": "every pair of containers", "why_tests_cant": "each index swaps its own structure; a missed one corrupts both", "anchors": ["include/boost/multi_index_container.hpp:swap_,swap_elements_", "include/boost/multi_index/detail/ord_index_impl.hpp", "include/boost/multi_index/hashed_index.hpp", "include/boost/multi_index/sequenced_index.hpp", "include/boost/multi_index/random_access_index.hpp"]}
{"id": "C38", "title": "Serialization round trip reproduces every index order", "statement": "Saving a container and loading it into another yields a container whose traversal in every ordered, ranked, sequenced and random access index is the same sequence as the original (the order of equivalent elements of ordered non-unique indices included); hashed indices have the same elements, in an order that is not specified.", "quantifier": "every container content and arrangement", "why_tests_cant": "the displaced-element encoding depends on the whole permutation", "anchors": ["include/boost/multi_index/detail/index_saver.hpp", "include/boost/multi_index/detail/index_loader.hpp", "include/boost/multi_index/detail/index_matcher.hpp", "include/boost/multi_index/detail/duplicates_iterator.hpp", "include/boost/multi_index_container.hpp:save,load", "include/boost/multi_index/detail/ord_index_impl.hpp:save_,load_,rearranger"]}
{"id": "C39", "title": "Serialized rearrangement information is minimal", "statement": "The elements an index does not mark as displaced when saving form a longest subsequence in the base order.", "quantifier": "every pair of orders", "why_tests_cant": "optimality over all subsequences", "anchors": ["include/boost/multi_index/detail/index_matcher.hpp"]}
{"id": "C40", "title": "Composite keys compare lexicographically", "statement": "composite_key_compare over component comparisons is exactly the lexicographic order, it is a strict weak order if the components are, and comparing with a shorter tuple is a compatible extension (prefix search); composite equality and hashing agree (equal keys hash equally). Lookup tuples may be boost::tuple or std::tuple, with the same results.", "quantifier": "every tuple length and component order", "why_tests_cant": "all lengths and component relations", "anchors": ["include/boost/multi_index/composite_key.hpp", "include/boost/multi_index/detail/cons_stdtuple.hpp: cons_stdtuple, make_cons_stdtuple"]}
{"id": "C41", "title": "Index comparison operators are lexicographic", "statement": "operator== and operator< on ordered, sequenced and random access indices equal element-wise equality and lexicographic comparison of the traversals; the other operators derive from them.", "quantifier": "every pair of sequences", "why_tests_cant": "all lengths", "anchors": ["include/boost/multi_index/sequenced_index.hpp:operator==,operator<", "include/boost/multi_index/detail/ord_index_impl.hpp:operator==,operator<", "include/boost/multi_index/random_access_index.hpp"]}
{"id": "C42", "title": "Elements never move: iterators and references survive", "statement": "No operation other than the element's own erasure/extraction/failed modify changes the identity of an element: iterators to other elements remain valid and refer to the same value; project() gives the same element in another index.", "quantifier": "every history", "why_tests_cant": "must hold across all operations of all indices", "anchors": ["include/boost/multi_index_container.hpp:project", "include/boost/multi_index/detail/ord_index_impl.hpp:iterator_to", "include/boost/multi_index/random_access_index.hpp", "include/boost/multi_index/sequenced_index.hpp", "include/boost/multi_index/hashed_index.hpp"]}
{"id": "C43", "title": "Splice on sequenced index: exception behaviour", "statement": "If a user operation throws while splicing a range from another container into the middle of a sequenced index, the exception propagates and the elements transferred so far are before position, both containers valid.", "quantifier": "every pair of lists, position, throw point", "why_tests_cant": "needs a throw in the middle of a multi-element transfer to a middle position", "anchors": ["include/boost/multi_index/sequenced_index.hpp:external_splice"]}
{"id": "C44", "title": "Erasing by key or range is exact", "statement": "erase(key) removes exactly the elements with equivalent key and returns their number; erase(first,last) removes exactly the range; extract(key) takes the first equivalent.", "quantifier": "every index and key", "why_tests_cant": "all group/tree shapes", "anchors": ["include/boost/multi_index/detail/ord_index_impl.hpp:erase,extract", "include/boost/multi_index/hashed_index.hpp:erase", "include/boost/multi_index/sequenced_index.hpp:erase", "include/boost/multi_index/random_access_index.hpp:erase"]}
{"id": "C45", "title": "Colour bit packing is lossless", "statement": "Storing a node's colour in the low bit of its parent pointer never alters the other: after setting either, both read back exactly, for every suitably aligned address. On platforms where this would not hold (no integer of the size of a pointer, odd alignment, pointers that are objects) they are kept apart.", "quantifier": "every pair of address and colour, every sequence of updates, every platform (sizes of types, alignment)", "why_tests_cant": "all addresses", "anchors": ["include/boost/multi_index/detail/ord_index_node.hpp:ordered_index_color_ref,ordered_index_parent_ref,ordered_index_node_impl_base","include/boost/multi_index/detail/uintptr_type.hpp: uintptr_aux"]}
{"id": "C46", "title": "Range construction equals sequential insertion", "statement": "Constructing a container from a range gives the same acceptance and contents as inserting the values one at a time (with hints chained), and on a throw nothing leaks.", "quantifier": "every range and throw point", "why_tests_cant": "any mix of duplicates and index kinds", "anchors": ["include/boost/multi_index_container.hpp:multi_index_container(InputIterator,InputIterator)", "include/boost/multi_index_container.hpp:operator=(initializer_list)"]}
{"id": "C47", "title": "Random access loading reorders exactly", "statement": "The random access loading procedure, which threads a linked list through the pointer array and converts it back in place, yields exactly the sequence produced by the requested moves, with back pointers exact.", "quantifier": "every array and every sequence of moves", "why_tests_cant": "in-place permutation correctness over all permutations", "anchors": ["include/boost/multi_index/detail/rnd_index_loader.hpp"]}
{"id": "C48", "title": "Safe mode detects exactly the invalidated iterators", "statement": "With safe mode, after an element is erased every iterator that referred to it is reported invalid and every other iterator stays valid; swapping containers makes iterators follow their elements.", "quantifier": "every set of live iterators and history", "why_tests_cant": "the registry is a global intrusive list", "anchors": ["include/boost/multi_index/detail/safe_mode.hpp"]}
{"id": "C49", "title": "Load factor policy", "statement": "After any insertion into a hashed index the number of elements does not exceed the maximum load computed from bucket count and max load factor, unless the largest bucket array is in use; rehash(n) never leaves fewer buckets than needed.", "quantifier": "every history and max_load_factor", "why_tests_cant": "numeric policy over all sizes", "anchors": ["include/boost/multi_index/hashed_index.hpp:reserve_for_insert,calculate_max_load,rehash,max_load_factor"]}
{"id": "C50", "title": "clear and destruction free every node exactly once", "statement": "clear() empties every index, destroys every element and deallocates every node of the container exactly once, and leaves other containers and node handles untouched; destroying a container does the same and also frees its header node and its bucket and pointer arrays; neither meets a node twice although the traversal frees the nodes it walks over.", "quantifier": "every reachable program state, every mix of indices (the last index determines the traversal used to free the nodes)", "why_tests_cant": "a double free or leak depends on tree shapes and bucket layouts", "anchors": ["include/boost/multi_index_container.hpp:clear_,delete_all_nodes_,~multi_index_container", "include/boost/multi_index/detail/ord_index_impl.hpp:delete_all_nodes", "include/boost/multi_index/hashed_index.hpp:delete_all_nodes_"]}
{"id": "C51", "title": "Loading any archive is safe", "statement": "Whatever an archive contains (elements with equivalent keys, too few elements, pointers to nothing), and whichever user call or allocation throws while it is loaded, load returns or throws, leaves the container loaded valid, and does not affect other containers, node handles or their elements.", "quantifier": "every archive content, container and throw point", "why_tests_cant": "archives are arbitrary data", "anchors": ["include/boost/multi_index_container.hpp:load", "include/boost/multi_index/detail/index_loader.hpp", "include/boost/multi_index/detail/ord_index_impl.hpp:load_,rearranger", "include/boost/multi_index/sequenced_index.hpp:load_", "include/boost/multi_index/random_access_index.hpp:load_"]}
{"id": "C52", "title": "Memory goes back to the allocator it came from", "statement": "Every block of memory a container holds (header, element nodes, bucket arrays, pointer arrays) comes from an allocator equal to get_allocator(), and every block is deallocated with an allocator equal to the one that allocated it, also across copies, moves, assignments, swaps, node handles and transfers between containers with unequal allocators.", "quantifier": "all sequences of operations on any number of containers and node handles, all combinations of propagation traits and allocator values, all throw points of copying", "why_tests_cant": "The mismatches depend on combinations of traits, allocator values, index kinds and the order of copies, assignments and rehashes; with allocators that do not track ownership nothing is observed.", "anchors": ["include/boost/multi_index_container.hpp: constructors, operator=, swap_, swap_elements_", "include/boost/multi_index/detail/auto_space.hpp: auto_space::swap", "include/boost/multi_index/hashed_index.hpp: hashed_index copy constructors, unchecked_rehash", "include/boost/multi_index/random_access_index.hpp: copy constructors", "include/boost/multi_index/detail/node_handle.hpp"]}
{"id": "C53", "title": "A node handle carries the allocator of its node", "statement": "A node handle holds a live copy of the allocator of its node exactly while it holds a node. Constructing, moving, assigning, swapping, inserting and destroying handles constructs and destroys that copy exactly once, moves it together with the node and deallocates a replaced or dropped node with its allocator.", "quantifier": "all sequences of handle operations, all combinations of empty and non-empty handles, all traits", "why_tests_cant": "The allocator lives in raw storage with manual lifetime; an error shows only in some combination of states and traits, as undefined behaviour.", "anchors": ["include/boost/multi_index/detail/node_handle.hpp: node_handle"]}
{"id": "C54", "title": "Allocators propagate as their traits say", "statement": "After copy construction get_allocator() is what select_on_container_copy_construction selects or the allocator given; after move construction that of the source or the one given; copy assignment, move assignment and swap replace the allocator exactly if the respective propagation trait is true. Move construction and move assignment transfer the elements without constructing new ones if the allocators are equal or the allocator is replaced.", "quantifier": "all containers, traits and allocator values", "why_tests_cant": "Ranges over all combinations of traits and allocators.", "anchors": ["include/boost/multi_index_container.hpp: constructors, operator=, swap_"]}
{"id": "C55", "title": "The library's own invariant check always succeeds", "statement": "When the code is compiled with BOOST_MULTI_INDEX_ENABLE_INVARIANT_CHECKING, the check that every operation makes of the container after it (order and balance of ordered indices, sizes of subtrees, buckets and links of hashed indices, lists, pointer arrays, number of elements in each index) ends and succeeds, whether the operation returned or threw. In any state in which it succeeds, every index can be traversed and has size() elements.", "quantifier": "all histories of programs with any number of containers and any mix of indices, every throw point; for the second sentence all states of the memory", "why_tests_cant": "The check is the oracle of the test suite; tests run it on the states they happen to reach, only.", "anchors": ["include/boost/multi_index_container.hpp: invariant_, check_invariant_", "include/boost/multi_index/detail/ord_index_impl.hpp: invariant_", "include/boost/multi_index/hashed_index.hpp: invariant_", "include/boost/multi_index/sequenced_index.hpp: invariant_", "include/boost/multi_index/random_access_index.hpp: invariant_", "include/boost/multi_index/detail/ord_index_node.hpp: black_count", "include/boost/multi_index/ranked_index.hpp: augmented_policy invariant"]}
{"id": "C56", "title": "Bucket iteration and the number of comparisons of a hashed lookup", "statement": "For every bucket n of a hashed index, iteration from begin(n) to end(n) visits exactly the elements whose hash falls in bucket n, each once; one bucket after the other gives every element once. All elements with a key equal to k are visited in bucket bucket(k). A lookup compares the key only with elements of that bucket, with none of them twice, and with at most one element for each distinct key (two in non-unique indices), however many equivalent elements there are.", "quantifier": "all hashed indices, unique or not, any number of elements and buckets, all keys", "why_tests_cant": "Ranges over all contents of the buckets; the bound on comparisons for many equivalent elements depends on the links inside groups of any size.", "anchors": ["include/boost/multi_index/hashed_index.hpp: begin(size_type), end(size_type), local_iterator, find", "include/boost/multi_index/detail/hash_index_node.hpp: after_local, next_to_inspect"]}
{"id": "C57", "title": "Checks of safe mode accept exactly the right iterators", "statement": "In safe mode, every check of an iterator or of the arguments of a member function succeeds exactly when the documented precondition holds, reports the documented error otherwise, and never runs into undefined behaviour itself. Dereferencing and incrementing fail exactly for invalid and for end iterators, decrementing exactly for invalid iterators and those at the beginning, += exactly when the result would be outside [begin,end], comparison and difference exactly for iterators of different indices. Member functions accept an element, a position, a range [first,last), the arguments of relocate, of splice from another index of the same container and of project exactly when they belong to the index, last is reachable from first, and the position is not inside the range. Accepted operations of iterators do what they do outside safe mode.", "quantifier": "all reachable programs with any number of containers, indices and iterators, all iterators obtained from the library (valid, invalidated, default constructed), all distances", "why_tests_cant": "Ranges over all histories of containers and iterators; a check that accepts one wrong iterator or rejects one right iterator shows up only in the history that produces it.", "anchors": ["include/boost/multi_index/detail/safe_mode.hpp: check_dereferenceable_iterator, check_incrementable_iterator, check_decrementable_iterator, check_is_owner, check_belongs_in_some_index, check_same_owner, check_valid_range, check_outside_range, check_in_bounds, safe_iterator", "include/boost/multi_index/sequenced_index.hpp: relocate, splice", "include/boost/multi_index_container.hpp: project"]}
{"id": "C58", "title": "A rejected insertion needs no memory", "statement": "Inserting a value that some index bans allocates no node and constructs no value: the result is the same whether or not the allocation or the construction of a new element would fail, and it is the element that bans the insertion unless a user function throws.", "quantifier": "all reachable containers, all banned values, with or without a hint", "why_tests_cant": "Ranges over all states of all combinations of indices and over the failures of the allocator and of the constructor.", "anchors": ["include/boost/multi_index_container.hpp: insert_", "include/boost/multi_index/detail/index_base.hpp: insert_"]}
{"id": "C59", "title": "List operations in containers with other indices", "statement": "In a container with any other indices, insert and emplace at a position, push_front, push_back and insertion of node handles, ranges or n copies through a sequenced or random access index put exactly the elements accepted by all indices, in the order given, right before the position, add them to the other indices, and leave everything else as it was. If something throws, the values processed before are in their place and the rest is as before. resize(n) with n at most size() erases exactly the elements from the n-th on; otherwise it appends copies, and size() is n if no index is unique. assign destroys all elements and inserts the values.", "quantifier": "all reachable containers with any mix of indices, all positions, all ranges of values, every throw point", "why_tests_cant": "Ranges over all containers, index combinations, positions, duplicates in the range and throw points.", "anchors": ["include/boost/multi_index/sequenced_index.hpp: insert, insert_rvalue/nh, emplace_impl, resize, assign_iter, insert_iter, pop_back", "include/boost/multi_index/random_access_index.hpp: insert, emplace_impl, resize, assign_iter, insert_iter, pop_back, relocate"]}
{"id": "C60", "title": "Splicing between containers with other indices", "statement": "splice of an element or a range of any index of another container, into a sequenced or random access index of a container with any other indices, transfers exactly the elements that all indices of the destination accept in turn, and puts them in the order of the range right before the position. With equal allocators no element is created or destroyed; with unequal allocators each element is copied and the original erased. Elements rejected stay where they were. If something throws, the elements processed before have been transferred to their place, and all others are where they were (for sequenced indices with equal allocators and a position other than end() this last claim is C43).", "quantifier": "all pairs of reachable containers with any mix of indices, all ranges and positions, equal and unequal allocators, every throw point", "why_tests_cant": "Ranges over all pairs of containers and combinations of indices, ranges with and without clashes, and throw points.", "anchors": ["include/boost/multi_index/sequenced_index.hpp: external_splice, splice", "include/boost/multi_index/random_access_index.hpp: external_splice, splice"]}
{"id": "C61", "title": "remove_if and unique in containers with other indices", "statement": "remove_if, remove and unique of a sequenced or random access index erase exactly the elements for which the predicate says so (unique: those equivalent to the last element kept before them) from every index of the container, destroy them, and change nothing else, not even the order of the elements kept. The predicate is called once per element, in order. If a call throws, the exception arrives; of a sequenced index the elements found before the call are gone, of a random access index none are and only the order of that index may have changed.", "quantifier": "all reachable programs, all mixes of other indices, all predicates including ones with state and ones that throw at any call", "why_tests_cant": "The effect on the other indices, and what is left by an exception, depends on the sequence, the answers and the throw point; tests fix a few.", "anchors": ["include/boost/multi_index/sequenced_index.hpp: remove_if, unique", "include/boost/multi_index/random_access_index.hpp: remove_if, unique", "include/boost/multi_index/detail/rnd_index_ops.hpp: random_access_index_remove, random_access_index_unique", "include/boost/multi_index/detail/seq_index_ops.hpp: sequenced_index_remove, sequenced_index_unique"]}
{"id": "C62", "title": "merge of list indices in containers with other indices", "statement": "merge(x,comp) of a sequenced or random access index takes from x, in turn, exactly the elements that clash with no element then present; they go into all indices of the destination, the rejected ones stay. The elements that were in the index keep their order, and so do those taken. If comp is a strict weak ordering and both sequences are sorted, the result is their stable merge: sorted, and of equivalent elements those of the destination first. If a comparison, a transfer or an allocation throws, the exception arrives and every element is in exactly one of the containers, with both orders kept. With unequal allocators copies take the place of the elements, which are destroyed. Merging with itself does nothing.", "quantifier": "all reachable programs, all mixes of other indices, all comparisons including ones that throw at any call, all allocation failures, equal and unequal allocators", "why_tests_cant": "Rejections interleave with comparisons in ways that depend on all elements of both containers; throw points are unboundedly many.", "anchors": ["include/boost/multi_index/sequenced_index.hpp: merge", "include/boost/multi_index/random_access_index.hpp: merge", "include/boost/multi_index/detail/seq_index_ops.hpp: sequenced_index_merge", "include/boost/multi_index/detail/rnd_index_ops.hpp: random_access_index_inplace_merge"]}
{"id": "C63", "title": "Threads and safe mode", "statement": "With invariant checking of iterators on (safe mode), programs with several threads may rely on what holds without it: concurrent access to different containers is safe, and concurrent read-only access to the same container is safe (obtaining, copying, assigning, comparing, dereferencing and destroying iterators). As long as overlapping operations only read the indices the others use, and no operation changes an iterator object another one uses: no two threads access the same memory at the same time with one of them writing; no thread follows a null pointer or is told that an iterator it may use is invalid; every iterator not being changed is valid or not, for the same index and at the same position, as if the operations had been carried out one after the other; the list of every index not in use contains exactly its valid iterators. Operations end, however threads take turns. Threads never wait for each other in a circle, not even in programs that break these rules. Destroying an iterator counts as reading its container: unlike without safe mode it must not overlap with operations that change the container.", "quantifier": "all numbers of threads, all programs made of operations on iterators and indices, all interleavings of their steps", "why_tests_cant": "The interleavings of two short operations are already too many to run, and a test run exercises only those the scheduler happens to pick.", "anchors": ["doc/release_notes.html: Boost 1.33.1 release", "include/boost/multi_index/detail/safe_mode.hpp: safe_iterator_base, safe_container_base, safe_iterator, detach_equivalent_iterators, transfer_equivalent_iterators, detach_dereferenceable_iterators", "include/boost/multi_index/detail/scoped_bilock.hpp: scoped_bilock"]}
{"id": "C64", "title": "Numbers of calls of comparisons and predicates", "statement": "The complexity guarantees of the documentation hold as numbers of calls of user functions. In an ordered index of n elements lower_bound and upper_bound call the comparison object at most 2*log2(n+1) times, find once more, equal_range and count at most 4*log2(n+1) times however many elements are equivalent, range(lower,upper) calls the two bounds at most 4*log2(n+1) times, and the rank operations of ranked indices (count included) keep to the same numbers. Finding the place of a new element takes at most 2*log2(n+1)+1 comparisons; with a right hint at most two in an index of any size, and a wrong hint costs at most two more than none; whether a modified element can stay in place takes at most two. In sequenced indices sort calls the comparison at most n*(log2 n+1) times, merge at most n+m-1, unique at most n-1 times, and remove_if calls the predicate exactly once for every element. The bounds hold also for comparison objects that answer inconsistently.", "quantifier": "all indices of all sizes, all keys and hints, all user comparisons and predicates, consistent or not", "why_tests_cant": "A test measures the trees and lists it builds; the bound is about the worst tree of every size that any history of insertions and erasures can leave.", "anchors": ["doc/reference/ord_indices.html: Complexity signature", "include/boost/multi_index/detail/ord_index_ops.hpp: ordered_index_find, ordered_index_lower_bound, ordered_index_upper_bound, ordered_index_equal_range", "include/boost/multi_index/detail/ord_index_impl.hpp: link_point, hinted_link_point, in_place, range", "include/boost/multi_index/detail/rnk_index_ops.hpp: ranked_index_find_rank, ranked_index_equal_range_rank", "include/boost/multi_index/detail/seq_index_ops.hpp: sequenced_index_sort, sequenced_index_merge, sequenced_index_unique, sequenced_index_remove"]}
{"id": "C65", "title": "Costs of random access indices", "statement": "The documented complexities of random access indices hold, counted in slots of the internal array written. With spare capacity an insertion at the end writes two slots in an index of any size; an insertion elsewhere writes as many more as there are elements from the position on, plus one; an erasure as many as its distance to the end; relocate exactly rel(position,first,last) as documented. Insertion is amortized constant: over any history of operations (reserve and shrink_to_fit included) the slots written, reallocations included, are at most the sum of the documented costs with 7 for an insertion at the end, plus the initial size; n insertions at the end of a new index write at most 7n slots.", "quantifier": "all histories of operations on random access indices of all sizes, all positions, rejected and throwing insertions", "why_tests_cant": "Amortized bounds are about the worst history; runs can only show the ones tried.", "anchors": ["doc/reference/rnd_indices.html: Complexity signature", "include/boost/multi_index/detail/rnd_index_ptr_array.hpp: room_for_one, reserve, shrink_to_fit, push_back, erase", "include/boost/multi_index/detail/rnd_index_node.hpp: relocate, extract, transfer", "include/boost/multi_index/random_access_index.hpp: insert, erase, relocate"]}
{"id": "C66", "title": "Calls of the equality predicate and of the hash function by hashed indices", "statement": "Lookup, insertion, replacement and the check modify makes compare the key with at most one element per element of the bucket and at most two per different key in the bucket, however many equivalent elements there are (one comparison more for count, equal_range and insertion in non-unique indices): so at worst twice the number of non-equivalent elements of the index, whatever the hash function. A rehash calls the hash function at most once per element and at most twice per different key, exactly once per element in unique indices, and it fails exactly if one of these calls throws.", "quantifier": "all hashed indices of all sizes and histories, all hash functions and compatible lookup functions, all answers of the equality predicate", "why_tests_cant": "The worst case over all hash functions, groups and predicates cannot be run.", "anchors": ["doc/reference/hash_indices.html: Complexity signature", "include/boost/multi_index/hashed_index.hpp: find, count, equal_range, link_point, in_place, last_of_range, end_of_range, unchecked_rehash", "include/boost/multi_index/detail/hash_index_node.hpp: next_to_inspect"]}
{"id": "C67", "title": "Insertion in hashed indices is amortized constant", "statement": "Whenever an insertion finds the maximum load reached, the rehash that follows leads to more buckets with room for one more element; so rehashes are rare: over any history of insertions, erasures, rehashes and clearings of a hashed index with at most P elements at any time, the hash function is called at most once per insertion, P times per explicit rehash or throwing insertion, and 2.1*(P+1)+19 times for all automatic rehashes together; N insertions call it at most 3.1*N+21.1 times. Up to 2^24 elements and buckets; beyond, rounding to float can make successive insertions rehash without getting more buckets.", "quantifier": "all histories, all positive maximum load factors, unique and non-unique indices, rejected and throwing insertions", "why_tests_cant": "An amortized bound is about the worst history of any length; rounding effects appear at sizes far beyond those tests use.", "anchors": ["doc/reference/hash_indices.html: Complexity signature", "include/boost/multi_index/hashed_index.hpp: reserve_for_insert, rehash, unchecked_rehash, calculate_max_load, insert_", "include/boost/multi_index/detail/bucket_array.hpp: size_index, sizes"]}
{"id": "C68", "title": "Iterators saved after their container are loaded as the corresponding iterators", "statement": "When iterators are saved after the container they belong to, and loaded after it into a container with the same indices, each is loaded as an iterator of the container loaded: the end as the end, an iterator to an element as one to an element with the same value, at the same position in every index that is not hashed; different iterators remain different. An iterator that does not belong to the container saved makes loading throw. Whatever the archive has, an iterator that is loaded without an exception is a null local iterator, or to an element or the end of the container loaded. Iterators of hashed indices in archives of version 0 are read likewise, local iterators at the end of their bucket in their present form.", "quantifier": "all reachable containers, all iterators, all contents and index lists; the last part: all archives", "why_tests_cant": "The correspondence depends on the rearrangement of every index at loading and on the tracking of every node; tests save one iterator of a sample container.", "anchors": ["doc/reference/multi_index_container.html: Serialization", "include/boost/multi_index/detail/bidir_node_iterator.hpp: save, load", "include/boost/multi_index/detail/rnd_node_iterator.hpp: save, load", "include/boost/multi_index/detail/hash_index_iterator.hpp: save, load", "include/boost/multi_index/detail/index_node_base.hpp: load_construct_data", "include/boost/multi_index_container.hpp: save, load"]}
{"id": "C69", "title": "Operations on ordered indices take logarithmic time, deletion and rebalancing amortized constant time", "statement": "Each insertion, deletion, replacement and modification in an ordered index takes time at most proportional to the logarithm of the number of elements. Any sequence of them on a container that was empty at first takes time proportional to the sum of the documented costs: logarithmic for insertion, replacement and modification, constant for deletion. Rebalancing alone is amortized constant. Traversal from begin to end takes at most one step of a loop for each element, m increments of any iterator m steps plus a logarithm.", "quantifier": "all sizes, contents, hints, strict weak orderings and histories of operations, unique and non-unique indices", "why_tests_cant": "Amortized bounds are about all histories; the expensive ones are rare shapes of trees.", "anchors": ["doc/reference/ord_indices.html: Complexity signature", "include/boost/multi_index/detail/ord_index_impl.hpp: insert_, erase, replace_, modify_, link_point, hinted_link_point, in_place", "include/boost/multi_index/detail/ord_index_node.hpp: link, rebalance, rebalance_for_extract, restore, increment, decrement"]}
{"id": "C70", "title": "Hinted insertion and work in place are constant on ordered indices", "statement": "Documented: insertion with a hint immediately after the point of insertion is amortized constant, deletion is amortized constant, replacement and modification that do not change the position of an element are constant. In terms of the steps of loops: true of insertion at either end with the right hint and of deletion of the first element, in any combination; replacement and modification in place never touch the tree, but take up to a logarithm of steps to look at the neighbours. Not true of hints in the middle, of deletions at the end next to hinted insertions, and of work in place.", "quantifier": "all sizes, contents, strict weak orderings and histories", "why_tests_cant": "Amortized bounds are about all histories; benchmarks do not distinguish a small logarithm from a constant.", "anchors": ["doc/reference/ord_indices.html: Complexity signature", "include/boost/multi_index/detail/ord_index_impl.hpp: insert_, erase, replace_, modify_, link_point, hinted_link_point, in_place", "include/boost/multi_index/detail/ord_index_node.hpp: link, rebalance, rebalance_for_extract, restore, increment, decrement"]}
{"id": "C71", "title": "modify_key changes the key and nothing else; key extractors see through pointers", "statement": "A key extractor applied to a pointer to a pointer ... to an object gives the key of the object, whatever the length of the chain, and an assignment through a read/write key extractor changes that part of the object and nothing else. modify_key(position,mod): on success the key of the element is what mod made of it, the rest of the element is as it was, only that element has moved, and nothing has moved in indices with keys apart from the modified one; on failure the element is erased. modify_key(position,mod,back), where back undoes mod: on failure every element and every index is as it was.", "quantifier": "all lengths of chains, all reachable states, all combinations of indices, all modifying functions, all throw points", "why_tests_cant": "It is about all functions, all mixes of indices and all states.", "anchors": ["include/boost/multi_index/member.hpp: member", "include/boost/multi_index/identity.hpp: identity", "include/boost/multi_index/mem_fun.hpp", "include/boost/multi_index/global_fun.hpp", "include/boost/multi_index/detail/modify_key_adaptor.hpp: modify_key_adaptor", "include/boost/multi_index/detail/ord_index_impl.hpp: modify_key", "include/boost/multi_index/hashed_index.hpp: modify_key"]}
{"id": "C72", "title": "Any single call of a user function may throw, and calls are few", "statement": "Whichever calls of comparison objects, equality predicates, hash functions and key extractors throw, and whenever, the exception leaves the operation; insert, emplace, insertion of node handles, merge, splice and rehash then leave everything unchanged, replace leaves everything identical, and modify (with or without a rollback function that restores the keys) has erased the element and changed nothing else. An operation calls only functions of the indices of its own container, and at most: an ordered index is compared 2*log2(n+1)+5 times; a hashed index tests for equality a small multiple of the number of different keys plus one, and hashes one key unless it has to grow or is rehashed.", "quantifier": "all reachable states, all combinations of indices, all arguments, all choices of the calls that throw (call by call, depending on number and arguments), any number of them", "why_tests_cant": "The number of throw points grows with the container and the mix of indices; a test tries a few.", "anchors": ["include/boost/multi_index_container.hpp: insert_, replace_, modify_", "include/boost/multi_index/detail/ord_index_impl.hpp: insert_, replace_, modify_, modify_rollback_, check_rollback_, link_point, in_place", "include/boost/multi_index/hashed_index.hpp: insert_, replace_, modify_, modify_rollback_, check_rollback_, reserve_for_insert, unchecked_rehash, link_point, in_place"]}
{"id": "C73", "title": "Rank operations and updates of ranked indices take logarithmic time", "statement": "On a ranked index of n elements, nth, rank, find_rank, lower_bound_rank and upper_bound_rank return the right answer within 2*log2(n+1)+2 rounds of their loops, and equal_range_rank, range_rank and count (however many elements are counted) within twice as many. Every insertion, with or without a hint, every deletion, replacement and modification leaves the index as the same operation of an ordered index does, with all ranks right again, within 24*log2(n+1)+3 rounds, those that adjust the counters of the nodes included.", "quantifier": "all index contents and shapes of the tree, all positions, keys, bounds and hints, all updates that are legal", "why_tests_cant": "A bound on the number of steps for every tree shape and size cannot be established by running some of them.", "anchors": ["include/boost/multi_index/ranked_index.hpp: nth, rank, find_rank, range_rank, count", "include/boost/multi_index/detail/rnk_index_ops.hpp: ranked_index_nth, ranked_index_rank, ranked_index_equal_range_rank", "include/boost/multi_index/ranked_index.hpp: rank_policy (add, remove, copy, rotate_left, rotate_right)", "doc/reference/rnk_indices.html: complexity signature, rank operations"]}
{"id": "C74", "title": "The time operations of hashed indices take", "statement": "On a hashed index, find, equal_range and the search of an insertion or replacement finish within as many rounds of their loops as there are elements in the bucket of the key, and within twice the number of different keys in it, however many equivalent elements there are; count takes one round more for each element counted; erase assigns at most five links and has no loop. Modification of an element is documented to take, at worst, time proportional to the number of non-equivalent elements: this holds of unique indices, but in non-unique indices there may be one round more for each element equivalent to the modified one.", "quantifier": "all index contents, bucket arrays, hash functions and keys; the documented bound for modification of elements of non-unique indices is refuted, with as many equivalent elements as one likes", "why_tests_cant": "A bound on the number of steps for every distribution of elements over buckets and groups cannot be established by running some of them.", "anchors": ["include/boost/multi_index/hashed_index.hpp: find, count, equal_range, link_point, in_place, unlink", "doc/reference/hash_indices.html: complexity signature"]}
{"id": "C75", "title": "The time copying a container takes", "statement": "Copy construction of a container with n elements takes, apart from one call of std::sort on n entries, 2*n rounds of loops for cloning the elements, at most (n+4)*(3*log2(n)+4) rounds for each index, searches for the clones of nodes included, and one round for each bucket of a hashed index; no more if anything throws. The documentation gives n*log(n) for every index; this is false of hashed indices, which may have any number of buckets for few elements.", "quantifier": "all containers a program may reach, all numbers and kinds of indices, all placements of the new nodes in memory, all exceptions; the documented bound for hashed indices is refuted with arbitrarily large bucket arrays", "why_tests_cant": "A bound on the number of steps for every size, shape and placement in memory cannot be established by running some of them.", "anchors": ["include/boost/multi_index/detail/copy_map.hpp: find, clone", "include/boost/multi_index_container.hpp: copy_construct_from, copy_", "include/boost/multi_index/detail/ord_index_impl.hpp: copy_", "include/boost/multi_index/hashed_index.hpp: copy_", "include/boost/multi_index/sequenced_index.hpp: copy_", "include/boost/multi_index/random_access_index.hpp: copy_", "include/boost/multi_index/detail/bucket_array.hpp: bucket_array, clear", "doc/reference/multi_index_container.html: complexity of the copy constructor"]}
{"id": "C76", "title": "What a program sees depends on its history of operations only", "statement": "Two programs that execute the same sequence of operations with the same values see the same sizes, the same elements in the same order in every ordered, ranked, sequenced and random access index, the same elements in every hashed index, and the same successes and positions as results, whatever the addresses of the nodes, the numbers of buckets and the moments of rehashing and reserving. Within a hashed index the elements with a given key are in the same order too, new elements coming first, as long as no operation changes a key of a hashed index; with such changes their order may depend on the numbers of buckets.", "quantifier": "all pairs of histories of any length that match operation by operation, interleaved with any calls of rehash, reserve and shrink_to_fit in either program; all allocations", "why_tests_cant": "A test runs one history with one placement in memory; independence of the placement ranges over all histories and all placements.", "anchors": ["include/boost/multi_index/hashed_index.hpp: link_point, in_place, rehash, replace_, modify_", "include/boost/multi_index/detail/hash_index_node.hpp: link, relink", "include/boost/multi_index/detail/ord_index_impl.hpp: link_point, hinted_link_point", "include/boost/multi_index/sequenced_index.hpp: insert_, relocate", "include/boost/multi_index/random_access_index.hpp: insert_, reserve, shrink_to_fit", "include/boost/multi_index_container.hpp: insert_, erase_, modify_, transfer_"]}
{"id": "C77", "title": "Comparison objects, equality predicates and hash functions that break their requirements cannot damage a container without non-unique hashed indices", "statement": "Suppose comparison objects and equality predicates return anything, inconsistent from call to call, or throw, and elements' values (keys and hash values included) change behind the library's back between operations. Then order and uniqueness are lost, but in a container without hashed_non_unique indices every operation still returns or throws (no undefined behaviour, no endless loop), each index still has exactly the same elements, each once, size() is their number, no element is leaked, destroyed twice or shared, each operation adds or removes just the element it is about and changes the value of no other, and lookups return an element or end(), ranges whose end is reachable from their beginning, and ranks no larger than the size. For hashed_non_unique indices this is false: one wrong answer of the equality predicate is enough. For modify with a rollback function it holds if no call of a user function throws during the operation; if one does, the element may be erased twice, which is the only other possibility. The same holds for load, with any archive: it returns or throws, the container stays intact with the indices it had, and other containers and node handles are as they were.", "quantifier": "all programs; all answers and exceptions of all calls of comparison objects and equality predicates, call by call; all changes of values between operations", "why_tests_cant": "A test tries a few broken predicates; the claim is about every possible sequence of answers in every history.", "anchors": ["include/boost/multi_index/detail/ord_index_impl.hpp: link_point, hinted_link_point, in_place, modify_, replace_", "include/boost/multi_index/detail/ord_index_ops.hpp", "include/boost/multi_index/detail/rnk_index_ops.hpp", "include/boost/multi_index/hashed_index.hpp: link_point, find, equal_range, count, last_of_range, in_place, modify_, unchecked_rehash", "include/boost/multi_index/detail/hash_index_node.hpp: link, unlink", "include/boost/multi_index_container.hpp: insert_, erase_, modify_, replace_, transfer_", "include/boost/multi_index_container.hpp: load", "include/boost/multi_index/detail/ord_index_impl.hpp: load_, rearranger"]}
{"id": "C78", "title": "Every program's containers behave as ideal containers whose indices are plain lists", "statement": "Take the ideal container a reader of the documentation has in mind: per index a list of elements; insertion appends to sequenced and random access indices, and in ordered indices goes to the last place its key allows or, with a hint, to the nearest place to the hint that its key allows; a value is rejected exactly if a unique index has an element with an equivalent key, and the iterator returned then points to that element of the first such index; erasure removes from all lists; a changed element moves only in the ordered indices that are no longer sorted, to the last place its key allows; a rejected modification removes the element, or gives it the value the rollback function made; copies have the elements in the same order; relocation, splice, reverse, rearrange, merge and a stable sort are the functions on lists of the same name; a call that throws changes nothing, except that a throwing modify removes the element, and that loading an archive that contradicts the order of keys stops where the contradiction is. Then after any history of calls, returning or throwing, every index of every container of the real program is traversed in exactly the order the ideal says (hashed indices: has exactly the elements the ideal says), elements have the values and handles own the elements the ideal says, and each call returned the boolean and the iterator the ideal says.", "quantifier": "all programs on any number of containers with any indices and of node handles, all values, hints, results of memory allocation and exceptions; all operations except remove and unique of random access indices, and sorts of sequenced indices that meet equivalent elements (covered by other claims)", "why_tests_cant": "Tests compare a few histories with expected outcomes; here the complete observable behaviour is determined for all histories.", "anchors": ["include/boost/multi_index_container.hpp: insert_, emplace_, insert_nh_, transfer_, erase_, extract_, replace_, modify_, copy_", "include/boost/multi_index/detail/ord_index_impl.hpp: link_point, hinted_link_point, modify_", "include/boost/multi_index/sequenced_index.hpp", "include/boost/multi_index/random_access_index.hpp", "include/boost/multi_index/hashed_index.hpp"]}
{"id": "C79", "title": "Arguments may refer to elements of the container", "statement": "insert(first,last), insert(position,n,x), insert(position,first,last) and resize(n,x) take references, which may be to elements, also of the container itself: the outcome is that of the same call with copies made before the call, although values are read anew for each insertion while the container grows and rearranges itself. A range given by iterators of any index of another container, incremented while this one grows, delivers exactly its elements in order. assign(n,x) and assign(first,last) behave so for references to elements of other containers; with a reference to an element of the container itself assign reads a destroyed object, as its documented effect (clear first) implies.", "quantifier": "all reachable states, all containers and indices, all references to existing elements, all outcomes of memory allocation, all exceptions", "why_tests_cant": "Whether a reference is still valid depends on what happened to the memory before; tests of undefined behaviour may pass.", "anchors": ["include/boost/multi_index/sequenced_index.hpp: insert, resize, assign, assign_iter, insert_iter", "include/boost/multi_index/random_access_index.hpp: insert, resize, assign", "include/boost/multi_index/detail/ord_index_impl.hpp: insert(first,last)", "include/boost/multi_index/hashed_index.hpp: insert(first,last)"]}
{"id": "C80", "title": "Lookups with arguments that have to be converted to keys", "statement": "find, contains, count, lower_bound, upper_bound, equal_range and the rank versions of ordered and ranked indices, and find, count and equal_range of hashed indices, are exact for every compatible extension of the functions of the index, also if the comparison object or the equality predicate cannot take the argument as it is, so that the argument is converted to a key before the lookup.", "quantifier": "all reachable containers, all argument types, conversions, comparison objects, predicates and hash functions that meet the documented requirements", "why_tests_cant": "Which of the two ways is taken depends on the overloads of function objects; tests try a few of them.", "anchors": ["include/boost/multi_index/detail/promotes_arg.hpp: promotes_1st_arg, promotes_2nd_arg", "include/boost/multi_index/detail/is_transparent.hpp", "include/boost/multi_index/detail/ord_index_ops.hpp", "include/boost/multi_index/detail/rnk_index_ops.hpp", "include/boost/multi_index/hashed_index.hpp: find, count, equal_range"]}
{"id": "C81", "title": "Every question is answered as an ideal container would answer it", "statement": "After any program, sizes, values read through iterators, traversals, begin(), ++ and -- of iterators, find, contains, count, lower_bound, upper_bound, equal_range, range, nth, rank and the rank versions of lookups, operator[] and distances of random access iterators, and comparisons of indices give what a programmer who thinks of each index as a plain list, changed by the operations as documented, expects. Programs for which these lists are the same cannot be told apart, except by the order in which hashed indices are traversed.", "quantifier": "all programs (histories of operations, with exceptions), all containers and indices, all questions whose documented preconditions hold, all keys and bounds", "why_tests_cant": "The answer depends on the whole history of all indices; tests ask a few questions after a few histories.", "anchors": ["include/boost/multi_index/detail/ord_index_impl.hpp", "include/boost/multi_index/ranked_index.hpp", "include/boost/multi_index/hashed_index.hpp", "include/boost/multi_index/sequenced_index.hpp", "include/boost/multi_index/random_access_index.hpp", "include/boost/multi_index_container.hpp: size, get, operator==, operator<"]}
{"id": "C82", "title": "An argument given as an rvalue is moved from exactly if it is accepted", "statement": "insert(value_type&&), insert(hint,value_type&&) and replace(position,value_type&&) leave the argument as it is if the element is rejected by any index, and move from it if it is accepted. If an exception is thrown, by a key comparison, a hash function or an allocation, the argument is as it was; only its own move constructor or move assignment can have changed it. No index reads the argument after it has been moved from. With const value_type& the argument is never changed. In all other respects the two versions do the same.", "quantifier": "all reachable containers with any indices in any order, all values and positions, all exceptions", "why_tests_cant": "Which index rejects, and in which order indices are asked, depends on the composition of the container and its contents; tests try a few.", "anchors": ["include/boost/multi_index/detail/index_base.hpp: insert_, replace_ with rvalue_tag", "include/boost/multi_index/detail/ord_index_impl.hpp: insert, insert_, replace, replace_", "include/boost/multi_index/hashed_index.hpp: insert, insert_, replace, replace_", "include/boost/multi_index/sequenced_index.hpp: push_back, insert, insert_, replace_", "include/boost/multi_index/random_access_index.hpp: push_back, insert, insert_, replace_", "include/boost/multi_index_container.hpp: insert_rv_, replace_rv_"]}
{"id": "C83", "title": "Destruction takes linear time and little stack", "statement": "Destroying a container of n elements takes at most 2*n+1 rounds of loops and calls of functions, as documented (O(n)). An ordered index does it by a recursive function: at most 2*log2(n+1)+1 calls of it are active at the same time, so the stack a program needs for destroying a container of any size and history grows with the logarithm of its size only. clear() takes no more, except for one round for each bucket of the hashed indices.", "quantifier": "all reachable containers with any indices in any order, all histories", "why_tests_cant": "The depth of the recursion depends on the shape of a tree, which depends on the whole history; tests destroy small containers filled in simple ways.", "anchors": ["include/boost/multi_index/detail/ord_index_impl.hpp: delete_all_nodes, delete_all_nodes_, clear_", "include/boost/multi_index/hashed_index.hpp: delete_all_nodes_, clear_", "include/boost/multi_index/sequenced_index.hpp: delete_all_nodes_, clear_", "include/boost/multi_index/random_access_index.hpp: delete_all_nodes_, clear_", "include/boost/multi_index/detail/bucket_array.hpp: clear", "include/boost/multi_index_container.hpp: delete_all_nodes_, clear_, ~multi_index_container"]}
{"id": "C84", "title": "List operations of sequenced indices take the documented time", "statement": "On a sequenced index of n elements sort takes O(n*log n) rounds of its loops (comparisons, merges, moves and the clean-up after an exception together, at most (n+2)*(2*log2 n+3)), reverse n+1 rounds, remove_if at most n rounds, unique at most n-1 rounds, and merge with a list of m elements at most n+m rounds. rearrange takes n rounds, splice within a container as many as elements are spliced, relocate has no loop; so in containers with any other indices, after any history. The bounds hold whatever comparison functions and predicates answer, when they throw, and when elements transferred by merge are rejected.", "quantifier": "all lists, all comparison functions and predicates including throwing and inconsistent ones, all outcomes of transfers", "why_tests_cant": "A bound on running time for every list and every sequence of answers cannot be established by timing some lists.", "anchors": ["include/boost/multi_index/detail/seq_index_ops.hpp: sequenced_index_remove, sequenced_index_unique, sequenced_index_merge, sequenced_index_collate, sequenced_index_sort", "include/boost/multi_index/detail/seq_index_node.hpp: reverse", "include/boost/multi_index/sequenced_index.hpp: remove_if, unique, merge, sort, reverse"]}
{"id": "C85", "title": "Filling an ordered index with sorted data", "statement": "Constructing a container from a range is documented to take O(m*H(m)), H the complexity of insertion with a hint, hence linear time for an ordered index and a range in its order. In terms of the steps of loops: all elements are accepted and stand in the order given, no insertion searches for its place, rebalancing takes at most 5*m rounds, and the whole at most m*(2*log2(m+1)+5). It is not linear: moving the hint on after each insertion goes from the last element to the root, so that no constant bounds the time per element. (Insertion with the hint end() given by the caller is linear: C70.)", "quantifier": "all strict weak orderings, unique and non-unique indices, all sorted ranges of any length", "why_tests_cant": "Bounds for ranges of every length; benchmarks do not distinguish a small logarithm from a constant.", "anchors": ["doc/reference/multi_index_container.html: constructor from a range, Complexity", "include/boost/multi_index_container.hpp: multi_index_container(first,last,args_list,al), operator=(std::initializer_list)", "include/boost/multi_index/detail/ord_index_impl.hpp: insert_, hinted_link_point", "include/boost/multi_index/detail/ord_index_node.hpp: increment, link"]}
{"id": "C86", "title": "Indices by number and by tag", "statement": "A container type is accepted by the compiler exactly if it has an index, its specifiers are written in one of the documented forms and no tag is used twice, within an index or in different ones. Then get<N>() and projection by number give the index of the N-th specifier, are accepted exactly for 0<=N<number of specifiers, and give different indices for different numbers; get<Tag>() and projection by tag give the index of the one specifier with that tag, and are rejected if there is none. Specifiers with and without a list of tags mean the same but for the tags, and absent function objects get the documented defaults.", "quantifier": "all lists of index specifiers of any length, all lists of tags, all numbers and tags asked for", "why_tests_cant": "Each container type is another run of the compile-time algorithm; tests compile a few, and those that have to be rejected are rarely tested at all.", "anchors": ["include/boost/multi_index/tag.hpp: tag, is_tag", "include/boost/multi_index/detail/no_duplicate_tags.hpp", "include/boost/multi_index/detail/has_tag.hpp", "include/boost/multi_index/detail/base_type.hpp: nth_layer", "include/boost/multi_index/detail/ord_index_args.hpp", "include/boost/multi_index/detail/hash_index_args.hpp", "include/boost/multi_index_container.hpp: nth_index, index, get"]}
{"id": "C87", "title": "The alias template key", "statement": "key<K> is the documented extractor for the kind of pointer K is (member, each kind of const, volatile and reference qualified member function with or without noexcept, function), and is rejected for other pointers. key<K0,...,Kn> is a composite_key of exactly the extractors of its arguments in their order, for a value type that is one of the classes of the arguments and is convertible to all of them, so that every extractor can be applied to every element. It is accepted, up to the limit of composite_key, whenever of any two of the classes one is convertible to the other; the order of the arguments does not matter to the value type then, but it can decide about acceptance otherwise (a class with two unrelated bases).", "quantifier": "all lists of pointers of any length, all class hierarchies (reflexive and transitive convertibility)", "why_tests_cant": "Each list of arguments is another run of a recursive compile-time computation, in every order and over every hierarchy of classes.", "anchors": ["include/boost/multi_index/key.hpp: typed_key_impl, remove_noexcept, least_generic, key_impl, limited_size_key_impl, key", "doc/reference/key_extraction.html: Alias template key"]}
{"id": "C88", "title": "Temporary objects while loading", "statement": "While a container is loaded, each element is read into a temporary object that is constructed once, used only within its lifetime and destroyed exactly once before load returns or throws, whichever step throws: constructing it, reading it, inserting it (also a bad archive with a clashing element), reading the pointer to its node, or loading the indices. When load returns the archive knows each object it read at the address of the corresponding element of the container, so pointers to elements that are read later refer to elements and never to a temporary; after an exception the only possible exception is the one object whose loading was under way.", "quantifier": "all archives, well-formed or not, all containers in all reachable states, all combinations of calls that throw", "why_tests_cant": "The exception can come from any step of any iteration, after any number of elements.", "anchors": ["include/boost/multi_index/detail/archive_constructed.hpp: archive_constructed", "include/boost/multi_index_container.hpp: load", "include/boost/multi_index/detail/index_loader.hpp: add"]}
{"id": "C89", "title": "Size of archives, time of saving and of reading orders", "statement": "Saving a container of n elements takes, apart from one sort of n pointers whatever the number of indices, time proportional to n log n for each index whose order has to be saved (all but hashed and ordered unique indices). The archive has at most three pointers for each element that has to be moved into place, and one for each such index, where the number of elements moved is the least possible; for indices that are in the order of the first index there is one pointer each. Reading these pointers takes at most one sort and time proportional to log n for each pointer, for any archive; for indices in the order of the first it takes no sort and time independent of n.", "quantifier": "all containers in all reachable states: all numbers and kinds of indices, all numbers and orders of elements", "why_tests_cant": "The bounds hold for all permutations of all sizes, and for all groups of equivalent elements.", "anchors": ["include/boost/multi_index/detail/index_saver.hpp: save", "include/boost/multi_index/detail/index_matcher.hpp: algorithm_base", "include/boost/multi_index/detail/duplicates_iterator.hpp: duplicates_iterator", "include/boost/multi_index_container.hpp: save", "include/boost/multi_index/detail/index_loader.hpp: load"]}
{"id": "C90", "title": "Checks of invariants happen once, when an operation is left", "statement": "With BOOST_MULTI_INDEX_ENABLE_INVARIANT_CHECKING, an operation of a container or index checks the container exactly once, after all its effects, whether it returns or throws, and is left the same way as without the check, even if the check itself throws. It does not matter how often the compiler copies the guard that does the check. In general the action of a guard runs at most once, when the last copy is destroyed, and never if that copy was dismissed.", "quantifier": "all bodies of operations and states, all numbers of copies of guards; all histories of making, copying, dismissing and destroying guards", "why_tests_cant": "Whether guards are copied depends on the compiler, and there is no bound on copies and nesting; exceptions may leave an operation at any point.", "anchors": ["include/boost/multi_index/detail/scope_guard.hpp: scope_guard_impl_base, safe_execute, make_obj_guard", "include/boost/multi_index_container.hpp: BOOST_MULTI_INDEX_CHECK_INVARIANT_OF", "include/boost/multi_index/detail/invariant_assert.hpp: BOOST_MULTI_INDEX_INVARIANT_ASSERT"]}
{"id": "C91", "title": "Projection of iterators, and iterators from references", "statement": "project<N>(it) is an iterator of index N that refers to the same element as it, at the same address, and is end() exactly if it is; projecting back gives it again. iterator_to(*it) of any index is it projected to that index, in the index of it the iterator itself. ++it, unless at the end, is at the next position of the index, and --it, unless at the beginning and in any index but a hashed one, at the position before. This does not depend on where compilers place the parts of a node.", "quantifier": "all containers in all reachable states, all pairs of indices, all iterators, all addresses of nodes and all offsets of base classes in nodes", "why_tests_cant": "Layouts depend on the compiler, allocator and index list, and iterators on the whole history of the container.", "anchors": ["include/boost/multi_index_container.hpp: project", "include/boost/multi_index/detail/index_node_base.hpp: from_value, node_from_value, value", "include/boost/multi_index/hashed_index.hpp: iterator_to", "include/boost/multi_index/detail/ord_index_impl.hpp: iterator_to"]}
{"id": "C92", "title": "Archives of older versions of the library and of the elements", "statement": "Containers saved with any class version of multi_index_container up to the present one are loaded with the number of elements they had, and load_construct_data is called with the version the element type had in the program that saved them (0 if the version of the library did not save it), whatever version it has now. The version of elements is saved once, however many containers are in the archive. Conditions are as documented: with versions 1 and 2, archives that treat collection_size_type in a special way need the macro BOOST_MULTI_INDEX_ENABLE_SERIALIZATION_COMPATIBILITY_V2; with version 3 the number must fit unsigned long.", "quantifier": "all class versions, data models, numbers of containers and elements, versions of element types when saving and loading", "why_tests_cant": "Archives of old versions from all data models are not at hand, and numbers of elements that matter are too large.", "anchors": ["include/boost/multi_index_container.hpp: save, load", "include/boost/multi_index/detail/serialization_version.hpp: serialization_version"]}
{"id": "C93", "title": "When lookup arguments are converted to keys in advance", "statement": "For functions, and function objects of classes that are not final, a lookup argument is converted to a key before a lookup exactly if the call of the comparison object or predicate with the argument would convert it, keys are taken as they are, and there is such a conversion; with functions and function objects that take the argument as it is, it is passed on unchanged. Final classes, which cannot be examined, always get the argument as it is.", "quantifier": "all types of function objects with any overloads, all functions and pointers to functions, all types of arguments and keys, all implicit conversions", "why_tests_cant": "Overload sets and conversions of user types are unlimited; tests try a few.", "anchors": ["include/boost/multi_index/detail/is_transparent.hpp: is_transparent, is_transparent_class, is_transparent_class_helper, is_transparent_function", "include/boost/multi_index/detail/promotes_arg.hpp: promotes_1st_arg, promotes_2nd_arg"]}
