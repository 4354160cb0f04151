# Formal model of Boost.MultiIndex in Lean 4

## Layers

1. **Node structures (pointer level).** Each index kind's link structure is modelled as a heap of
   fields (functions from node ids to ids) with the same assignments as the C++:
   sequenced circular list, red-black tree with header (plus subtree sizes for ranked indices),
   hashed bucket list (unique and non-unique with group links and the undo log), random access
   pointer array with back pointers. Each operation is proved to refine an operation on plain
   lists / trees of node ids.
2. **Index algorithms.** Lookup, ranks, hinted link points, in-place checks, sort/merge/remove/unique,
   rotation by permutation cycles, rehashing, patience sorting, serialization stream. They are modelled
   as total functions over the structures of layer 1 or over their list/tree abstraction.
3. **Container cascade.** A container is a list of indices over one node store; each public operation is
   the cascade `index 0 → index 1 → … → index_base` of the C++ (`super::insert_`, `super::modify_`, …).
   User calls may throw: a throw oracle is part of the state and every user call consumes one entry.
   Undefined behaviour (erasing a node that is not linked, …) is a distinct outcome `ub`.

User-supplied functions (key extraction, comparison, hash, equality, predicates, modifiers, rollbacks) are
parameters. Requirements documented for them (strict weak order, hash consistent with equality) appear as
explicit hypotheses.

## Plan per property

| id | model | proof |
|----|-------|-------|
| C01 | cascade over arbitrary index lists, ops incl. throws | invariant by induction over histories |
| C02 | cascade `insert` | case analysis on first banning index; induction on index list |
| C03 | cascade + list level ordered/hashed index | part of the invariant |
| C04 | same | part of the invariant |
| C05 | cascade `insert` with throw oracle | state equality after throw |
| C06 | cascade `replace` | iff + state equality |
| C07 | cascade `modify` | postcondition by induction on index list |
| C08 | cascade `modify` with rollback | positive part for no-throw; the throwing part is suspected false of the code (rethrow inside inner try): negation by witness |
| C09 | cascade erase/extract; unlink of each structure | refinement |
| C10 | cascade with allocation ledger, node handles | invariant by induction |
| C11 | two containers, transfer cascade | invariant, conservation |
| C12 | descent loops of ord_index_ops on trees | induction on tree |
| C13 | range dispatch on trees | induction |
| C14 | link_point/hinted_link_point | refinement to list position |
| C15 | red-black rebalancing on trees/pointers | invariant by induction over ops, height bound |
| C16 | same | in-order sequence lemmas |
| C17 | increment/decrement loops | induction |
| C18 | rank/nth loops with size fields | induction; size maintenance invariant |
| C19 | rank lookups | induction |
| C20 | hashed index lists | invariant + lookup |
| C21 | hashed non-unique groups | invariant |
| C22 | unchecked_rehash with throw index | content equality; undo |
| C23 | unlink with undo log at pointer level | heap equality |
| C24 | sizes table | `decide +kernel` on the whole table lifted by lemma |
| C25 | equals loops | iff permutation |
| C26 | pointer list + list model | refinement |
| C27 | same | refinement |
| C28 | mergesort with counters | sortedness and permutation; stability suspected false: negation by witness |
| C29 | mergesort with throwing comparison | permutation invariant |
| C30 | merge loop | spec |
| C31 | remove/unique loops | equals filter / destutter |
| C32 | array + up pointers | invariant over ops |
| C33 | gcd cycles | number theory, equals list rotation |
| C34 | array algorithms | refinement to list functions |
| C35 | capacity policy | invariant |
| C36 | copy_map, copy_ per structure, copy construction and assignment of containers, with throw points | the copied links represent the mapped sequence; effect of each program step |
| C37 | swap_, swap_elements_, move construction and assignment of containers | effect of each program step |
| C38 | saver/loader/matcher | round trip theorem: the displaced elements move to their places one after the other (`Ser.Replay`) |
| C39 | patience sorting | longest increasing subsequence |
| C40 | composite compare loops over lists of components | iff lexicographic; strict weak order |
| C41 | operators | iff |
| C42 | node ids | frame theorem over histories |
| C43 | external_splice with throw | suspected false (catch does not rethrow): negation by witness |
| C44 | erase loops | spec |
| C45 | bit vectors; the choice of representation by sizes of types (`Ord.Bits`, `Ord.Chosen`) | bit lemmas; induction over updates |
| C46 | range constructor | fold of inserts |
| C47 | loader arrays | refinement |
| C48 | iterator registry, with the calls to it in every index class | chains represent the registry; invariant and fate of every iterator, per program step and over histories |
| C49 | load policy with abstract rounding function, and with rounding to binary32 | invariant; beyond 2^24, relative errors of single operations are bounded |
| C50 | deletion of all nodes, per kind of last index | refinement, ledger of allocated nodes |
| C51 | load on arbitrary archives, with throw points; once more with every call of a user function explicit (`Cont.PlaceCalls`, `Ser.LoadCalls`) | invariant of program states over the steps of load; simulation for the version with calls |
| C52 | origin of every block of memory, traits as parameters | invariant over histories, parametrized by what is kept of the arrays; counterexamples |
| C53 | node handles with the lifetime of their allocator | invariant over histories |
| C54 | constructors, assignments, swap on allocators | effect of each step |
| C55 | `invariant_` of every index class and of the container | the invariants of C01–C04 imply every comparison it makes; converse by its loops |
| C56 | local iterators, the elements a lookup compares | refinement of the buckets |
| C57 | checks of safe mode, checked operations of iterators, guards of member functions | position of an iterator (`Stands`) from the invariant of safe mode; each check decides a relation of positions |
| C58 | insertion cascade parametrized by the innermost step | independence of the result from that step |
| C59 | positional insertion, range insertion, resize, assign, pop_back through list indices of containers | induction over the values; plain insertion effect followed by relocation |
| C60 | external_splice of list indices, equal and unequal allocators | induction over the range; transfer or copy-and-erase effect followed by relocation |
| C61 | remove_if, unique of list indices, as loops of erasures (sequenced) or a rearrangement and erasures at the end (random access) | induction over the loop against the relation `Sift`; the arrays by the lemmas of C31 |
| C62 | merge of list indices as loop of splices (sequenced) or splice and in-place merge (random access) | induction over the loop against the relation `Weaves`; `Merges` for the array; with an ordering both are `List.merge` |
| C63 | iterator lists of safe mode as shared memory, operations as programs of single accesses and mutex operations, any number of threads | permissions: for each operation a weakest precondition that is stable under what others may do; invariant over interleavings; order of mutexes for deadlocks; counterexample for destruction |
| C64 | lookups, link points and ranks again with calls of the comparison explicit (`Ord.Calls`), proved to return what the functions of `Ord.Search` return; lists: the call counters of the sequenced index model | number of calls bounded by the height of the tree for every sequence of answers, height by the red-black invariant; sort: total size of the lists still to be merged, weighted by level |
| C65 | the random access model again with writes of slots counted (`Rnd.Writes`), proved to do the same | exact counts per operation; potential `4*size-3*capacity` for histories |
| C66 | the searches of hashed indices again with every call of the predicate explicit (`Hash.Calls`), proved to compute the same; calls of the hash function counted by `rehashCalls` | induction over the bucket; groups have two representatives |
| C67 | one index with its load policy and a counter of calls of the hash function (`Hash.Grow`) | invariant: automatic rehashes are covered by the sum of the bucket counts grown out of; partial (2^24), the full claim is refuted |
| C68 | what is written for an iterator (number of the object tracked), `load` with the nodes it tracks (`Ser.Archive`: `saveIt`, `loadT`, `loadIt`) | from the proof of C38, whose correspondence of elements is the one of the tracked nodes |
| C69 | all loops of ordered indices with the number of their rounds (`Ord.Steps`, `Ord.Acts`; erasing the numbers gives the functions of the other properties) | potential of the tree (colours of nodes and children) pays for rebalancing, a sum of logarithms pays for the walks of deletion |
| C70 | as C69 | partial: proved for the ends; refuted with histories of every length in which the root is the hint, or the last element is erased |
| C71 | key extractors as functions with a case for chained pointers, `modify_key_adaptor`, `modify_key` as a call to `modify` (`Key.Extract`) | induction on the chain; from C07 and C08, laws of data members |
| C72 | the cascades of insertion, replacement and modification once more, with every call of a user function explicit and able to throw (`Spec.Runs`, `Cont.Calls`, `Cont.CallBound`) | simulation of the operations of the container model, which the other properties are about; induction over the indices for the numbers of calls |
| C73 | rank operations and updates of ranked indices, with the rounds of all loops counted, those of the counters included (`Ord.RankSteps`) | the loops climb or descend a path of the tree, whose height is logarithmic; the rest is C69 |
| C74 | lookups, `link_point` and `in_place` of hashed indices, with the rounds of all loops counted (`Hash.Steps`) | one round per group or single element of the bucket; partial: the documented bound for modification is refuted with indices of equivalent elements |
| C75 | copy construction with the rounds of all loops counted (`Cont.CopySteps`) | each loop is bounded by the number of elements, and each search by a logarithm; partial: the documented bound for hashed indices is refuted with large bucket arrays |
| C76 | two programs run in parallel, with a correspondence of nodes (`Cont.Twin`) | the effect of each operation determines the new sequences up to the correspondence; by induction over the common history. That the order of equivalent elements after changes of keys is determined is refuted with two numbers of buckets |
| C77 | the operations with every call of a user function explicit (`Cont.Calls`), all calls answered arbitrarily; states with arbitrary values (`Cont.Wild`); load of any archive (`Cont.PlaceCalls`, `Ser.LoadCalls`) | `Asks.Always`/`Runs.Always`: by induction over the computation, every branch ends in an intact state; the links of an index are in order iff they are for the index with trivial functions (`Layer.shadow`), so the structural lemmas are reused; invariant by induction over the history. For non-unique hashed indices the claim is refuted, and for `modify` with a rollback function if calls throw; `Runs.Calm` speaks about the runs in which none does |
| C78 | executable ideal containers on lists (`Cont.Ideal`), without any of the model's data structures | refinement: relation `Agrees`, preserved by each operation, from the effect lemmas; which element is the obstacle from an induction over the cascade of indices (`insertC_first`); determination of the place from sortedness (`place_eq`, `sorted_iff`); there is only one stable sort (`sorted_unique`) |
| C79 | loops that take references, reading the value anew each time; reading a destroyed element is undefined (`Cont.RefApi`) | equality with the loops on copied values (C59), by induction; insertion destroys no element and changes no value |
| C80 | dispatch of the lookup functions, with the results of the calls of a function object for arguments and keys, whether they convert, and the conversion (`Cont.Promote`) | reduction to C12, C19 and C20; negations by witness |
| C81 | questions (`Cont.Ask`) answered by the functions of the index layers of the model; their answers in terms of lists (`Cont.IdealAsk`) | from C78 and the lookup theorems C12, C13, C17 to C20, C25, C32, C41, for each kind of question |
| C82 | `insert` and `replace` with the argument as an object that can be moved from (`Cont.Move`); reading the key of an object that has been moved from is undefined behaviour | simulation between the versions with and without the object; `insert_spec` says whether the last index was reached |
| C83 | twin of the functions that destroy all elements which counts rounds, calls and active calls (`Cont.DeleteSteps`) | rounds from the number of nodes deleted; active calls from the height of the tree (C15) |
| C84 | twins of the list operations of sequenced indices which count the rounds of their loops (`Seq.Steps`) | twins proved to do what the operations do; rounds of merging loops are comparisons (C64), carries bounded by the counters in use; for the others the least budget with which the loop ends |
| C85 | the loop of the constructor from a range on an ordered index, with rounds counted as in C69 (`Ord.Fill`), shown to be what the constructor of a container with one ordered index does (`Cont.FillTime`) | partial: any range ends up as its elements in order in O(m*log m); induction over the range with the potential of C69; linear time refuted with the ranges 0,…,m-1, by the depth of the last element |
| C86 | the compile-time computations on specifiers and tags: arguments of specifiers, the hierarchy of indices, the set used to find duplicate tags, search by number and tag (`Meta.Model`) | induction over the lists of specifiers and tags; `Meta.Spec` says what the user wrote |
| C87 | the compile-time computation of `key<…>` (`Meta.Key`) | cases of pointer types; induction over the arguments for the least generic class |
| C88 | `load` with the temporary of each iteration and the addresses the archive tracks (`Ser.Temp`); use outside the lifetime is undefined behaviour | induction over the elements, with the specification of one insertion |
| C89 | `save` of all indices with the rounds of its loops counted (`Ser.SaveCost`) | halving of the range of each search; induction over the elements and the indices; the pointers written are bounded by a potential |
| C90 | guards with their flag and action, their constructors, copy constructors and destructors (`Guard.Model`) | invariant over histories: one armed guard at most for each action, the one in charge; induction over the copies |
| C91 | addresses of nodes and offsets of the classes they consist of, conversions between these, `project`, `iterator_to` (`Cont.Project`) | conversions are sums of offsets; all indices hold the same elements, each once, and not the header (C01); steps from the traversals of the four kinds of indices |
| C92 | the heads of containers in archives, as tokens, with versions of classes as Boost.Serialization writes them (`Ser.Head`) | induction over the containers; cases of versions |
| C93 | overloads with ranks of conversions, the overload that the code adds to a class, `is_transparent`, `promotes_1st_arg`, `promotes_2nd_arg` (`Meta.Transparent`) | partial: cases of function objects; false of the code for overloads that take forwarding references |

## Trusted base

Lean 4.33.0 kernel; axioms `propext`, `Classical.choice`, `Quot.sound` only. No other axioms, no `sorry`,
no `native_decide`/`bv_decide`.

## What is modelled

| module | code | level |
|--------|------|-------|
| `Seq.*` | detail/seq_index_node.hpp, detail/seq_index_ops.hpp, sequenced_index.hpp | `next`/`prior` fields of every node |
| `Rnd.*` | detail/rnd_index_node.hpp, detail/rnd_index_ops.hpp, detail/rnd_index_ptr_array.hpp, detail/rnd_node_iterator.hpp, detail/rnd_index_loader.hpp, random_access_index.hpp | pointer array, capacity, back pointers |
| `Ord.Heap` | detail/ord_index_node.hpp, rank policy of ranked_index.hpp | `parent`/`left`/`right`/`color`/`size` fields of every node |
| `Ord.Search` | detail/ord_index_ops.hpp, detail/rnk_index_ops.hpp, lookup and link points of detail/ord_index_impl.hpp, ranked_index.hpp | loops over these fields |
| `Hash.Heap` | detail/hash_index_node.hpp | `prior`/`next` fields of every node and bucket, undo log |
| `Hash.Index` | detail/bucket_array.hpp; lookup, link points, in_place, rehashing of hashed_index.hpp | loops over these fields; hash function may throw at any call of a rehash |
| `Hash.Load`, `Hash.Float` | load policy of hashed_index.hpp | `float` as rationals with rounding to nearest even (binary32, no overflow) |
| `Hash.Equals` | equals of hashed_index.hpp | loops; ranges of equal elements collected first |
| `Ord.Bits` | compressed nodes of detail/ord_index_node.hpp | bit vectors of any width |
| `Ord.Chosen` | detail/uintptr_type.hpp, `ordered_index_node_impl_base` | bytes of 8 bits; addresses are numbers |
| `Cont.Layer`, `Cont.Cascade` | insert_, erase_, replace_, modify_, check_rollback_, extract_, clear_ of every index class and of detail/index_base.hpp | the pointer models above, one after the other; every user call of every index may throw |
| `Cont.Delete` | delete_all_nodes of every index class | recursion / loop over the pointer fields; freed nodes recorded |
| `Cont.Container` | insert_, insert_ref_, emplace_, insert_nh_, transfer_, extract_, erase_, clear_, replace_, modify_ of multi_index_container.hpp, detail/node_handle.hpp | heap of allocated nodes and constructed values |
| `Cont.Api` | erase(first,last), erase(key), extract(key), merge, range insertion, range construction | loops of program steps; memory and failures supplied by a `Host` |
| `Cont.ListApi` | sequenced_index.hpp, random_access_index.hpp: insert at a position, insert ranges, resize, assign, pop_back, external_splice | compositions of program steps; whether allocators are equal is a parameter |
| `Meta.Transparent` | detail/is_transparent.hpp, detail/promotes_arg.hpp | overload resolution by ranks of conversions; of ties only what matters for the added overload |
| `Cont.Promote` | dispatch in detail/ord_index_ops.hpp, detail/rnk_index_ops.hpp, hashed_index.hpp on detail/promotes_arg.hpp | `is_transparent` (see `Meta.Transparent`) and `is_convertible` are given as fields |
| `Cont.Ask` | the const functions of indices and containers as questions, dispatched to the functions of the layers | of `equal_range` of hashed indices the elements met from the first to the second position |
| `Cont.Move` | `insert` and `replace` of rvalues, with the argument as an object | any read of the key of an object that has been moved from counts as undefined behaviour; what a throwing move leaves behind is a parameter |
| `Cont.DeleteSteps` | delete_all_nodes and clear_ of every index class, with rounds, calls and active calls counted | proved to do what `Cont.Delete` and `Cont.Container` do |
| `Cont.PlaceCalls`, `Ser.LoadCalls` | the rearranger of ordered non-unique indices (ord_index_impl.hpp:1490-1521) and load, with every call of a user function explicit | proved to do what `Cont.World` and `Ser.Archive` do if no call throws |
| `Seq.Steps` | loops of sort, reverse, remove_if, unique and merge of sequenced indices, with rounds counted | proved to do what `Seq.Sort`, `Seq.Heap` and `Seq.Index` do |
| `Cont.ListSteps` | rearrangements of sequenced indices of containers, with rounds counted | proved to do what `Layer.rearrange` does |
| `Ord.Fill` | the loop of the constructor from a range, with rounds counted | index with no other indices below |
| `Meta.Model` | `tag`, `no_duplicate_tags`, `ordered_index_args`, `hashed_index_args`, `nth_layer`, `index_type_list`, `nth_index`, `index` | types are elements of a set; a key extractor is any type; limits on the number of tags and indices (`BOOST_MULTI_INDEX_LIMIT_TAG_SIZE`, `BOOST_MULTI_INDEX_LIMIT_INDEXED_BY_SIZE`) left out; an argument too many in the short forms is ignored, as in the code |
| `Meta.Key` | `key` | pointer types of the documented forms, functions with other numbers of arguments left out; whether a type is convertible to another is given |
| `Ser.Temp` | `archive_constructed`, `load` | as `Ser.Archive`; the archive is taken to track the address of an object when it begins to read it; `add_track` does not throw |
| `Ser.SaveCost` | `save`, `index_saver`, `index_matcher`, `duplicates_iterator` | rounds of loops counted; the time of `std::sort` is a parameter; incrementing an iterator counts as one |
| `Ser.LoadCost` | `index_loader::load` | pointers read and rounds of `std::binary_search` counted, not the calls of the rearrangers; the time of `std::sort` is a parameter |
| `Ser.OldIter` | `hashed_index_iterator::load`, version 0 | as `Ser.Archive`; the second pointer is null or that of the bucket array of the index |
| `Guard.Model` | detail/scope_guard.hpp, the macro `BOOST_MULTI_INDEX_CHECK_INVARIANT_OF` | guards for functions of any number of arguments are one kind with a numbered action; `make_guard_if` and `make_obj_guard_if`, which choose between two types at compile time, are a condition |
| `Cont.Project` | `project`, `iterator_to`, detail/index_node_base.hpp, detail/node_type.hpp | addresses are integers; each class of nodes has its base at a constant offset; alignment and aliasing rules of the language are not modelled |
| `Ser.Head` | beginning of `save` and `load`, detail/serialization_version.hpp | numbers are tokens with a form; what follows the head is left out; older writers are as the comments in the code say |
| `Cont.RefApi` | the same loops for arguments that are references to elements: ord_index_impl.hpp:340-345, hashed_index.hpp:320-325, sequenced_index.hpp:207-212, 264-279, 335-341, 957-993, random_access_index.hpp:221-226, 291-305, 373-402, 1029-1081 | the value is read once per insertion |
| `Cont.SiftApi` | sequenced_index.hpp, random_access_index.hpp, seq_index_ops.hpp, rnd_index_ops.hpp: remove_if, unique, merge | loops of program steps; user functions may depend on the number of the call and may throw |
| `Mt.Model` | detail/safe_mode.hpp with `BOOST_HAS_THREADS`, detail/scoped_bilock.hpp | interleaved single accesses (sequentially consistent: justified by the freedom from races that is proved); the exchange of two list heads by swap is one step; element data and the rest of the container are not part of this model |
| `Ord.Calls` | the functions of `Ord.Search` | every evaluation of the comparison object is a step that can be counted; refinement to `Ord.Search` is proved (`…A_run`) |
| `Rnd.Writes` | the functions of `Rnd.Model` | every write of a slot is counted; refinement to `Rnd.Model` is proved (`…W_eq`); loading and auxiliary arrays of sort and merge are not counted |
| `Hash.Calls` | the functions of `Hash.Index` that call the equality predicate | as `Ord.Calls`; erasure to `Hash.Index` is proved (`…A_run`); calls are counted, not nodes visited |
| `Hash.Grow` | hashed_index.hpp: `insert_` with `reserve_for_insert`, `rehash`; counter of calls of the hash function | one index on its own, fixed maximum load factor, allocations do not fail |
| `Key.Composite` | composite_key.hpp: equality, comparison, hashing, `composite_key_less`… | lists of component relations; a tuple is a list of values |
| `Key.StdTuple` | detail/cons_stdtuple.hpp, the overloads of composite_key.hpp for `std::tuple` | the wrapper is the tuple with a position |
| `Cont.Compare` | `operator==`, `<`… of the index classes and of the container | `std::equal`/`std::lexicographical_compare` loops over the indices of a program state |
| `Ser.Matcher` | detail/index_matcher.hpp | the array of entries, binary searches, piles; insertion sort for `std::sort` |
| `Ser.Stream` | detail/index_saver.hpp, detail/index_loader.hpp, detail/duplicates_iterator.hpp | streams of pointers; loops over the `increment` of the index |
| `Cont.Place` | rearrangers of detail/ord_index_impl.hpp, sequenced_index.hpp, detail/rnd_index_loader.hpp | the pointer models of the indices |
| `Ser.Archive` | save, load of multi_index_container.hpp, save_, load_ of every index class | program steps; an archive is the sequence of objects written |
| `Cont.CopyModel`, `Cont.Copy` | detail/copy_map.hpp, copy constructors and `copy_` of every index class and of the container | links written field by field; the sorted array of the map with its binary search |
| `Cont.Swap`, `Cont.Assign` | swap_, swap_elements_, do_not_copy constructors, move constructors, assignments | members exchanged index by index; allocators equal or not decides which path is taken |
| `Alloc.Model` | allocators in multi_index_container.hpp, detail/auto_space.hpp, detail/bucket_array.hpp, detail/rnd_index_ptr_array.hpp, hashed_index.hpp, random_access_index.hpp, detail/node_handle.hpp | which allocator allocates and deallocates each block; contents left out |
| `Safe.Registry` | detail/safe_mode.hpp: attach, detach, swap and the functions that detach or transfer iterators | `cont`/`next` fields of every iterator, header of every safe container |
| `Safe.Checks` | detail/safe_mode.hpp: check_*, checked operations of safe_iterator; the assertions of member functions | outcome is an error code, a result or undefined behaviour; temporary iterators made by a check are left out |
| `Safe.Model` | the safe mode lines of extract_, clear_, swap_, modify_ of every index class; destructors | registry next to the program state |
| `Cont.Check`, `Ord.Check` | invariant_ of every index class and of the container | the loops of the checks, over the pointer fields |
| `Hash.Local` | local iterators of hashed_index.hpp | loops over the pointer fields |
| `Cont.World` | programs: any number of containers and node handles, any sequence of operations | reachability |

Simplifications of the container model: comparison and hashing calls of one link point calculation throw or do not throw as a
whole (a throw inside it has the same effect wherever it happens, because no field has been written yet); a modifier is its
effect on the value plus whether it throws; allocation gives an address that is not in use (assumed in `World.Legal`).

C40, prefix lookups (`lower_bound(make_tuple(a,b))` with fewer values than components): the documentation does not say what is
needed of a component comparison between an attribute and a value of another type. The theorem asks that all components but the
last one compared identify exactly one class of attributes with the value; `C40_prefix_lookup_needs_exact` shows that without it
the documented compatibility fails.

Null pointers in the ordered index model: the null pointer is identifier 0, and the model does not check for it before reading a field. A
correct run never depends on it: the representation predicate says nothing about the fields of 0, so the theorems hold
for every content of these fields, and the frame conditions say that the fields of 0 are not written.

Loops carry an iteration budget. Theorems state that the budget `size + 3` (for lookups `2*log2(size+1)+2`) is enough, which
is the proof of termination.

## Claims of the documentation that are false of the code

Each is stated in Lean as a proposition and its negation is proved with a concrete witness.

* C28: `sequenced_index::sort` is documented as stable; it is not (`C28_sort_not_stable`).
* C43: splicing from another container in a sequenced index swallows exceptions and loses elements
  (`C43_exception_swallowed`, `C43_elements_lost`, `C43_splice_throw_unsafe`; in a container with other indices `C43_container_false`).
* C31: `random_access_index::unique(pred)` calls `pred` with the arguments in the opposite of the documented order
  (`C31_rnd_unique_documented_false`).

* C08: `modify` with rollback: if a user call throws while the indices are rearranged, the element is erased even when the
  rollback restored it (`C08_rollback_on_throw_false`), because the rethrow of multi_index_container.hpp line 1079 is caught by the handler of line 1081;
  if the rollback did not restore it, it is erased twice (`C08_no_double_erase_false`).

* C49: the maximum load is computed in `float`; for sizes above 2^24 it may be exceeded (`C49_full_false`: 402653185 elements with
  maximum load factor 1 in 402653189 buckets, for which 402653184 is computed as maximum load).

* C52: hashed and random access indices allocate their arrays with the allocator of the container they are copied or moved from
  (`x.get_allocator()`, hashed_index.hpp lines 773 and 794, random_access_index.hpp lines 769 and 783), not with that of the new container. So a container made with
  another allocator holds memory that is not from its allocator (`C52_owned_false`), move assignment between unequal allocators that do not propagate deallocates
  the old array of the target with the allocator of the source (`C52_proper_false`, `C52_proper_false_rnd`), and so does a rehash of a
  copy with another allocator (`C52_proper_false_rehash`). Nodes are always right (`C52_nodes`).

* C63: the documentation promises that concurrent read-only access is safe in safe mode too, and this is proved. But the destruction of an iterator, which touches
  nothing but the iterator without safe mode, has to count as an access to its container: `detach` reads which container the iterator belongs to before it locks
  the mutex of that container, so that an erasure in between leaves it searching a list the iterator is not in (`C63_drop_is_not_private`).

* C65: erasing an empty range of a random access index is documented as `O(m*D(n))` with `m=0`, but writes every slot from there to the end once
  (`C65_erase_empty_range`): `erase(first,last)` relocates the range to the end without looking whether it is empty. A matter of time only.

* C67: with a maximum load factor of 1 and 402653189 buckets, the insertions of elements number 402653185 to 402653200 each rehash the whole index to the same
  402653189 buckets (`C67_grows_full_false`): `max_load` and the bucket count asked for are computed in `float`, which rounds both to 402653184. Insertion is then not amortized
  constant. The same happens around the larger entries of the table of bucket counts.

* C70: hinted insertion is documented as amortized constant, replacement and modification in place as constant, and deletion as amortized constant. The numbers of comparisons
  are constant (C64), but all of these operations step to the predecessor or the successor of a node, which takes a walk of up to twice the logarithm of the size. With the
  root as the hint every time, insertion takes logarithmic time every time (`C70_hinted_full_false`), so does replacement of the root in place (`C70_in_place_full_false`), and so does repeated erasure
  of the last element (`C70_deletion_full_false`: `erase` computes the next position). The C++ standard makes the same claims for its ordered containers, with the same
  caveat; insertion at the ends and any deletion next to insertions that pay a logarithm are as documented (`C70_ends_partial`, `C69_amortized`).
* C85: construction from a sorted range should be linear, as insertion with a right hint is documented as amortized constant. The loop does `++hint` after each insertion
  at the end, which climbs from the last element to the root: m*log m steps (`C85_linear_full_false`), with at most two comparisons for each element (`C64_right_hint_unique`, `C64_right_hint_nonunique`) and O(m) rebalancing (`C85_sorted_partial`).
* C93: `is_transparent` should tell if a call converts arguments. For a function object with `template<T,Q> operator()(T&&,Q&&)`, such as `std::less<>`, it says so although nothing is
  converted, as `const T&,const Q&` of the added overload is more special (`C93_complete_full_false`). This has no effect for `std::less<>`, for which the calls with keys are held to convert too;
  but if there is a further overload for keys, lookup arguments are converted to keys that need not be (`C93_promotes_full_false`). Not run: this follows from the rules of the language as modelled.
* C74: modification of an element of a hashed index is documented as constant on average, and at worst proportional to the number of non-equivalent elements
  (doc/reference/hash_indices.html:434-438). In non-unique indices `in_place` (hashed_index.hpp:1590-1640) passes through the equivalent elements one by one until it meets the modified
  one (1612-1616). With n equivalent elements and no others, `modify` that leaves the key of the last one as it was takes n+1 rounds (`C74_modify_full_false`). `replace` with an equivalent
  key does not call `in_place`.
* C75: copying a hashed index of n elements is documented as proportional to n*log(n) (doc/reference/hash_indices.html:422). The new bucket array has as many buckets as that of the original,
  and each is initialized (bucket_array.hpp:146, 165), so that copying an empty container with m buckets takes m rounds (`C75_hashed_full_false`).
* C80: lookup arguments are converted to keys in advance if the comparison object or predicate does not take them as they are but can take two keys (detail/promotes_arg.hpp). If the overload that the call
  would select takes a third type (a base class of the argument, say), the code compares with the converted key instead (`C80_ordered_full_false`, `C80_hashed_full_false`). And a hash function given to
  `find(k,hash,eq)` is called with the converted key (hashed_index.hpp:1688-1703), although the documentation requires only that it hashes arguments (doc/reference/hash_indices.html:1062-1063, 1073):
  `C80_hash_of_key_false`. Neither affects `find(k)` with functions that convert arguments to keys (`C80_hashed_own`).

## What is not modelled

C++ object lifetime below the level of nodes (except for the temporaries of `load`, C88), constness, compile-time machinery other than specifiers, tags and `key` (C86, C87)
and selection of overloads, concurrency outside of safe mode (readers of a container write nothing then, so there is nothing to model; safe mode is C63: memory
accesses are interleaved, weak memory is covered by the freedom from races). Hashed `local_iterator`s are not checked in safe mode.
