{"id": "C01", "title": "push appends at the end", "statement": "BTree::push(e) never panics on a valid tree; afterwards the in-order element sequence is the old one with e appended, or, when the last element reports can_merge(e), with the last element replaced by last.merge_right(e); the returned cursor points at the first position of e.", "quantifier": "every valid tree of any size and shape, every element, every element/cache type obeying the trait contract", "why_tests_cant": "trees have unboundedly many shapes and sizes; node splits cascade only at particular fill patterns", "anchors": ["src/lib.rs: BTree::push, BTree::split, BTree::recursive_update_cache"]}
{"id": "C02", "title": "prepend inserts at the front", "statement": "BTree::prepend(e) puts e first (or merges it into the first element when e.can_merge(first)), returns a cursor to it, and leaves the tree passing check().", "quantifier": "every valid tree including the empty one, every element", "why_tests_cant": "needs every shape; the empty-tree case takes a separate early-return path", "anchors": ["src/lib.rs: BTree::prepend"]}
{"id": "C03", "title": "insert_by_path splices at the cursor", "statement": "insert_by_path(cursor,e) changes the element sequence only at the cursor: e is inserted before the cursor's element (offset 0), after it (offset = rle_len), inside it (split in two) or absorbed by it (try_insert / merge); every other element and its leaf index is untouched.", "quantifier": "every valid tree, every valid cursor (any leaf, any offset 0..=rle_len), every element", "why_tests_cant": "splits of the leaf's parent happen before the insertion and cascade; only particular fills reach them", "anchors": ["src/lib.rs: BTree::insert_by_path, BTree::split_leaf_if_needed, BTree::split_node, BTree::inner_insert_node, BTree::split_root"]}
{"id": "C04", "title": "remove_leaf removes exactly one element", "statement": "remove_leaf(cursor) on a live leaf returns its element and removes exactly that element from the sequence, keeping the order and the leaf index of all others; the tree stays valid and it never panics.", "quantifier": "every valid tree, every live leaf", "why_tests_cant": "the rebalancing (merge, borrow, level reduction, empty-node removal) depends on the fill of siblings at all levels", "anchors": ["src/lib.rs: BTree::remove_leaf, BTree::handle_lack_recursively, BTree::handle_lack_single_layer, BTree::remove_internal_node, BTree::try_reduce_levels"]}
{"id": "C05", "title": "stale leaf index is inert", "statement": "After a leaf has been removed its LeafIndex never refers to another element of that tree: get_elem returns None and remove_leaf returns None and changes nothing.", "quantifier": "every valid tree, every LeafIndex not live in it; every later history of the same tree", "why_tests_cant": "the guarantee is about all future histories after the removal", "anchors": ["src/lib.rs: BTree::remove_leaf, BTree::get_elem, BTree::get_elem_mut"]}
{"id": "C06", "title": "structural validity is preserved", "statement": "After any sequence of mutating operations the tree passes check(): parent links and slots agree with children, only the root may be empty, all leaves are at the same depth, and every cache is exact.", "quantifier": "every finite sequence of operations from BTree::new(), arbitrary arguments within preconditions", "why_tests_cant": "an invariant over all reachable states and all operation sequences", "anchors": ["src/lib.rs: BTree::check and all mutators"]}
{"id": "C07", "title": "root_cache is the exact aggregate", "statement": "root_cache() equals the combination of the caches of all elements in order (for an additive cache: their sum).", "quantifier": "every reachable tree; every cache type obeying the trait contract; with and without USE_DIFF", "why_tests_cant": "incremental diff propagation must agree with recomputation on every path and history", "anchors": ["src/lib.rs: BTree::root_cache, BTree::recursive_update_cache, BTree::recursive_update_cache_with_diff, BTree::update_root_cache"]}
{"id": "C08", "title": "iter yields the sequence in order", "statement": "iter() yields every element exactly once, in order, and terminates.", "quantifier": "every valid tree whose depth fits the fixed-capacity path", "why_tests_cant": "all shapes; cross-node stepping", "anchors": ["src/lib.rs: BTree::iter, BTree::first_path, BTree::next_sibling"]}
{"id": "C09", "title": "query by length finds the right position", "statement": "query::<LengthFinder>(i) returns the leaf that contains position i and the offset inside it, with found=true iff i is less than the total length; for i = total length it returns the end of the last leaf.", "quantifier": "every valid non-empty tree whose caches measure length, every index i", "why_tests_cant": "position arithmetic must hold at all levels and boundaries incl. zero-length elements", "anchors": ["src/generic_impl/len_finder.rs: LengthFinder::find_node, confirm_elem", "src/lib.rs: BTree::query, BTree::query_with_finder_return"]}
{"id": "C10", "title": "insert by query splices at the index", "statement": "insert::<LengthFinder>(i,e) makes the concatenated content equal to the old content with e's content spliced at i.", "quantifier": "every valid tree, every i <= total length, every element", "why_tests_cant": "composition of search, split and insert over all shapes", "anchors": ["src/lib.rs: BTree::insert, BTree::query, BTree::insert_by_path"]}
{"id": "C11", "title": "next_elem / prev_elem walk neighbours", "statement": "next_elem(c) is the start of the element right after c's element in sequence order, None exactly at the last; prev_elem is its inverse.", "quantifier": "every valid tree, every live cursor", "why_tests_cant": "must cross any number of levels", "anchors": ["src/lib.rs: BTree::next_elem, BTree::prev_elem, BTree::next_same_level_in_node, BTree::prev_same_level_in_node"]}
{"id": "C12", "title": "prefer_left / prefer_right denote the same position", "statement": "prefer_right / prefer_left return a cursor denoting the same sequence position (same number of preceding units), normalised to the right (resp. left) leaf, or None when there is no such leaf.", "quantifier": "every valid tree, every valid cursor", "why_tests_cant": "boundary normalisation over all neighbouring pairs, including across nodes", "anchors": ["src/lib.rs: BTree::prefer_right, BTree::prefer_left"]}
{"id": "C13", "title": "shift_path_by_one_offset advances by one", "statement": "shift_path_by_one_offset(c) returns a cursor denoting the position one unit after c (skipping empty elements), or None if no element starts at or covers it.", "quantifier": "every valid tree, every valid cursor (offset 0..=rle_len)", "why_tests_cant": "the result depends on whether the step crosses a node boundary", "anchors": ["src/lib.rs: BTree::shift_path_by_one_offset"]}
{"id": "C14", "title": "compare_pos is the sequence order", "statement": "compare_pos(a,b) is Less/Equal/Greater exactly when a precedes/equals/follows b in (sequence index of leaf, offset) order.", "quantifier": "every valid tree, every pair of live cursors", "why_tests_cant": "all pairs at all depths", "anchors": ["src/lib.rs: BTree::compare_pos"]}
{"id": "C15", "title": "visit_previous_caches covers exactly the prefix", "statement": "The caches passed to the visitor, combined in call order, are exactly the caches of all elements strictly before the cursor's element; the last call gets the element and the offset. For length caches they sum to the cursor's position.", "quantifier": "every valid tree, every live cursor", "why_tests_cant": "all shapes and positions", "anchors": ["src/lib.rs: BTree::visit_previous_caches, BTree::get_path"]}
{"id": "C16", "title": "iter_range yields exactly the range", "statement": "iter_range(start..end) yields the elements from start's leaf to end's leaf in order, start offset reported only on the first, end offset only on the last, and omits the last leaf when the end is exclusive at offset 0.", "quantifier": "every valid tree, every ordered pair of live cursors", "why_tests_cant": "all shapes and ranges", "anchors": ["src/lib.rs: BTree::iter_range, BTree::_iter_range", "src/iter.rs: Iter::next"]}
{"id": "C17", "title": "first/last leaf, start/end cursor", "statement": "first_leaf/last_leaf/start_cursor/end_cursor return the first/last element of the sequence and None exactly on the empty tree.", "quantifier": "every valid tree", "why_tests_cant": "every shape", "anchors": ["src/lib.rs: BTree::first_leaf, BTree::last_leaf, BTree::start_cursor, BTree::end_cursor"]}
{"id": "C18", "title": "drain removes and yields exactly the range", "statement": "Dropping the iterator returned by drain(range) leaves the elements outside the range (boundary elements split), and the iterator yields the content inside the range in order, even if it is dropped before being exhausted; the tree remains valid.", "quantifier": "every valid tree, every ordered pair of positions, every number of next() calls before drop", "why_tests_cant": "deletion works on two root paths at all levels with early drop at any point", "anchors": ["src/iter.rs: Drain::new, Drain::next, Drain::drop, seal, handle_lack_on_path_to_leaf", "src/lib.rs: BTree::drain, BTree::drain_by_query"]}
{"id": "C19", "title": "drain never panics on an empty range", "statement": "drain_by_query on an empty tree, or with a start position at the very end of the tree, is a no-op.", "quantifier": "every tree and every empty range", "why_tests_cant": "edge of the quantifier: the none-constructor path", "anchors": ["src/iter.rs: Drain::none, Drain::drop"]}
{"id": "C20", "title": "update_leaf applies the closure in place", "statement": "update_leaf(leaf,f) replaces the element by f's result, inserts the returned extra elements right after it in order (dropping removable ones, possibly merging a single one into the next element), removes the leaf when nothing remains, and reports whether the leaf index is still valid.", "quantifier": "every valid tree, every live leaf, every closure result", "why_tests_cant": "normalisation has many combinations, times all node fills", "anchors": ["src/lib.rs: BTree::update_leaf"]}
{"id": "C21", "title": "update applies f exactly to the range", "statement": "update(start..end,f) calls f exactly on the parts of elements inside the range, once each, splitting boundary elements; elements outside are unchanged; removable results are removed; caches are exact if f reports exact diffs.", "quantifier": "every valid tree, every ordered pair of cursors, every closure with exact diffs", "why_tests_cant": "batch diff propagation merges diffs in hash order on all paths", "anchors": ["src/lib.rs: BTree::update, BTree::update_dirty_cache_map"]}
{"id": "C22", "title": "update_leaf_by_search updates the found leaf", "statement": "update_leaf_by_search(q,f) applies f to the leaf that query(q) finds, inserts the returned element after it, removes the leaf when it becomes removable, and keeps the tree valid if the reported diff is exact.", "quantifier": "every valid non-empty tree, every query, every closure with an exact diff", "why_tests_cant": "the upward pass interleaves diffs, splits and rebalancing", "anchors": ["src/lib.rs: BTree::update_leaf_by_search"]}
{"id": "C23", "title": "update_leaves_with_arg_in_ranges applies f per sub-range", "statement": "Every given leaf is split at the range boundaries and f is applied with each argument to exactly the pieces inside its range; all other content is unchanged.", "quantifier": "every valid tree, every multiset of (leaf, range, arg)", "why_tests_cant": "arbitrary many overlapping ranges; hash iteration order", "anchors": ["src/lib.rs: BTree::update_leaves_with_arg_in_ranges"]}
{"id": "C24", "title": "insert_many_by_cursor inserts the elements in order at the cursor", "statement": "insert_many_by_cursor(c,xs) makes the concatenated content equal to the old content with the contents of xs spliced, in order, at c (or appended when c is None on an empty tree); never panics.", "quantifier": "every valid tree, every valid cursor or None on empty, every list of elements", "why_tests_cant": "merging with neighbours depends on the position of the cursor and on can_merge of arbitrary data", "anchors": ["src/lib.rs: BTree::insert_many_by_cursor, merge_adj, BTree::create_subtrees_from_elem"]}
{"id": "C25", "title": "merging adjacent inserted elements preserves content order", "statement": "The batch pre-merge of insert_many keeps the concatenation of the contents.", "quantifier": "every list of at least two elements, every can_merge relation", "why_tests_cant": "order depends on which pairs merge: infinitely many patterns", "anchors": ["src/lib.rs: merge_adj"]}
{"id": "C26", "title": "from_iter builds exactly the given sequence", "statement": "collect::<BTree<_>>() yields a valid tree whose element sequence is exactly the iterated one.", "quantifier": "every finite list of elements", "why_tests_cant": "level-by-level bulk loading for all lengths", "anchors": ["src/lib.rs: FromIterator::from_iter"]}
{"id": "C27", "title": "clear empties the tree", "statement": "clear() yields a tree equal to new(): no elements, default cache, one internal node.", "quantifier": "every tree", "why_tests_cant": "trivial per state but over all states", "anchors": ["src/lib.rs: BTree::clear"]}
{"id": "C28", "title": "no leaked nodes", "statement": "Every node stored in the arenas is reachable from the root; hence node_len() is the number of reachable nodes, and after removing every element node_len() is 1.", "quantifier": "every reachable tree", "why_tests_cant": "leaks are invisible to content tests; all histories", "anchors": ["src/lib.rs: BTree::node_len, BTree::purge"]}
{"id": "C29", "title": "node fill bounds and no capacity panic", "statement": "No operation overflows the 12-slot children array: between operations each internal node has at most 11 children.", "quantifier": "every reachable tree and every operation", "why_tests_cant": "capacity overflow needs adversarial fill patterns", "anchors": ["src/lib.rs: Node::is_full, BTree::split, BTree::handle_lack_single_layer, BTree::split_leaf_if_needed, BTree::update_leaf"]}
{"id": "C30", "title": "logarithmic depth under ordered-map workloads", "statement": "In a tree built by OrdTreeMap inserts/deletes each non-root internal node has at least 6 children, so n elements give depth at most 1+log6(n/2).", "quantifier": "every sequence of inserts and deletes of present keys", "why_tests_cant": "amortised shape property over all histories", "anchors": ["src/lib.rs: BTree::handle_lack_single_layer, BTree::split_node", "src/generic_impl/ord.rs: OrdTreeMap::insert, OrdTreeMap::delete"]}
{"id": "C31", "title": "OrdTreeMap is a finite sorted map: insert", "statement": "insert(k,v) adds the binding or replaces the value of an existing key; other bindings are unchanged; keys stay strictly sorted in iter().", "quantifier": "every map state, every key and value, every total order", "why_tests_cant": "all histories and key orders", "anchors": ["src/generic_impl/ord.rs: OrdTreeMap::insert, OrdTrait::find_node, OrdTrait::confirm_elem"]}
{"id": "C32", "title": "OrdTreeMap delete of a present key", "statement": "delete(k) of a present key returns its binding and removes exactly it.", "quantifier": "every map state and present key", "why_tests_cant": "all histories", "anchors": ["src/generic_impl/ord.rs: OrdTreeMap::delete"]}
{"id": "C33", "title": "OrdTreeMap delete of an absent key is a no-op", "statement": "delete(k) for a key not in the map returns None and changes nothing.", "quantifier": "every map state and absent key", "why_tests_cant": "quantifies over absent keys at every gap position", "anchors": ["src/generic_impl/ord.rs: OrdTreeMap::delete"]}
{"id": "C34", "title": "OrdTreeMap len and iteration", "statement": "len() is the number of bindings, is_empty() agrees, iter() is strictly increasing; any history agrees with a simple sorted association list.", "quantifier": "every finite history of insert / delete-present", "why_tests_cant": "all histories", "anchors": ["src/generic_impl/ord.rs: OrdTreeMap::len, iter, iter_key; OrdTreeSet"]}
{"id": "C35", "title": "Rope insert/delete behave as string splicing", "statement": "After any history of insert(i,s) (i <= len) and delete_range, the rope's text equals the text obtained by the same edits on a plain byte string, and no operation panics.", "quantifier": "every finite history of inserts and deletes, every capacity constant, cursor cache included", "why_tests_cant": "cursor cache, chunking, gap buffers and tree rebalancing interact over all histories", "anchors": ["src/generic_impl/rope.rs: Rope::insert, Rope::delete_range, Display"]}
{"id": "C36", "title": "Rope::clear resets the rope", "statement": "After clear() the rope behaves like a new rope for every later history.", "quantifier": "every rope state, every later history", "why_tests_cant": "depends on the cached cursor left behind by earlier edits", "anchors": ["src/generic_impl/rope.rs: Rope::clear, Rope::insert"]}
{"id": "C37", "title": "Rope::len is the byte length of its text", "statement": "len() equals the byte length of to_string(); is_empty agrees.", "quantifier": "every reachable rope", "why_tests_cant": "all histories", "anchors": ["src/generic_impl/rope.rs: Rope::len, Rope::is_empty"]}
{"id": "C38", "title": "GapBuffer behaves as a bounded byte list", "statement": "insert_bytes, push_bytes, delete, split, slice, merge_left/right, try_insert act on to_vec() as list splice / delete / split / concatenation, fail exactly when the capacity would be exceeded, and never touch other bytes.", "quantifier": "every buffer state (any gap position), every argument, every capacity", "why_tests_cant": "gap position and byte moves for all states", "anchors": ["src/generic_impl/gap_buffer.rs: GapBuffer"]}
{"id": "C39", "title": "GapBuffer::from_str chunks losslessly", "statement": "The chunks concatenate to the input, none is empty, all but the last are full.", "quantifier": "every string, every capacity", "why_tests_cant": "all lengths", "anchors": ["src/generic_impl/gap_buffer.rs: GapBuffer::from_str"]}
{"id": "C40", "title": "update_with_split partitions the element", "statement": "Sliceable::update_with_split(range,f) yields parts whose contents concatenate to before ++ f(middle) ++ after.", "quantifier": "every element, every range inside it, every f", "why_tests_cant": "all boundary combinations", "anchors": ["src/rle.rs: Sliceable::update_with_split, Sliceable::split"]}
{"id": "C41", "title": "iter_with_filter prunes exactly by ancestor caches and accumulates prefixes", "statement": "iter_with_filter yields, in order, exactly the elements all of whose ancestors' (and own) caches satisfy the filter; the accumulated value is the sum of f's second components over all earlier siblings on the root path (equal to the prefix measure for additive measures).", "quantifier": "every valid tree, every filter", "why_tests_cant": "BFS order equals sequence order only because of uniform depth", "anchors": ["src/lib.rs: BTree::iter_with_filter"]}
{"id": "C42", "title": "update_cache_and_elem_with_filter visits each selected element once", "statement": "With a filter accepting everything g is applied to every element exactly once and the sequence order is unchanged; the filter runs exactly once on every non-root cache.", "quantifier": "every valid tree, every f and g", "why_tests_cant": "all shapes", "anchors": ["src/lib.rs: BTree::update_cache_and_elem_with_filter"]}
{"id": "C43", "title": "leaf indices are stable under unrelated edits", "statement": "A LeafIndex keeps denoting the same element across any operation that does not remove that element.", "quantifier": "every valid tree, every operation, every other leaf", "why_tests_cant": "indices survive arbitrary node splits/merges in all histories", "anchors": ["src/lib.rs: LeafIndex, BTree::get_elem"]}
{"id": "C44", "title": "range and emptiness", "statement": "is_empty() iff the sequence is empty; range(a..b) returns the two query results, None iff empty; query returns None iff empty.", "quantifier": "every valid tree", "why_tests_cant": "all shapes", "anchors": ["src/lib.rs: BTree::is_empty, BTree::range, BTree::query"]}
{"id": "C45", "title": "OrdTreeMap lookup position", "statement": "The ordered search descends to the unique leaf with the key if present (found = true) and otherwise to the insertion gap.", "quantifier": "every sorted tree, every key", "why_tests_cant": "binary search on cached min/max at all levels", "anchors": ["src/generic_impl/ord.rs: OrdTrait::find_node, OrdTrait::confirm_elem"]}
{"id": "C46", "title": "exact capacity of paths", "statement": "After any sequence of pushes onto a new tree, push has not failed, and iter() yields the whole sequence if the tree holds fewer than 2*6^9 = 20155392 elements and panics (NodePath overflow) otherwise; on any valid tree of ten or more levels iter, iter_range and visit_previous_caches panic.", "quantifier": "every list of pushed elements, every valid tree of ten or more levels", "why_tests_cant": "the limit is reached after more than twenty million insertions", "anchors": ["src/lib.rs: NodePath, BTree::first_path, BTree::get_path, BTree::push, BTree::iter"]}
{"id": "C47", "title": "range map refinement", "statement": "Every history of insert(a..b, v) and plus(a..b, d) with non-inverted ranges other than 0..0 runs without panic, and len() and get(i) for every i agree with an array of optional numbers on which insert overwrites and plus adds.", "quantifier": "every history of up to 260000 operations on any positions, or of any length on the first 781000 positions; every hash order", "why_tests_cant": "overlapping ranges split and update runs at every alignment; the order of the hash map of dirty nodes is random", "anchors": ["tests/range_num_map/mod.rs: RangeNumMap::insert, RangeNumMap::plus, RangeNumMap::get, RangeNumMap::len, RangeNumMap::reserve_range", "src/lib.rs: BTree::range, BTree::update"]}
{"id": "C48", "title": "range map enumeration", "statement": "iter() and drain(a..b) of the range map yield ranges such that position i has value v iff a yielded range with value v contains i.", "quantifier": "every valid map, every range", "why_tests_cant": "the existing tests only enumerate maps whose gaps come last", "anchors": ["tests/range_num_map/mod.rs: RangeNumMap::iter, RangeNumMap::drain"]}
{"id": "C49", "title": "validity and balance after histories of all operations", "statement": "After any history that also contains update_leaf, drain, update, update_leaves_with_arg_in_ranges, insert_many_by_cursor and update_leaf_by_search the tree passes check(), leaks no node, has the exact root cache, and every inner node off the left edge has 5 to 11 children; its depth is logarithmic.", "quantifier": "every finite history of all operations from new(), every hash order; with drains for traits whose empty combination is neutral", "why_tests_cant": "thin nodes arise only from particular alignments of drains with node boundaries", "anchors": ["src/lib.rs: BTree::check, BTree::drain, BTree::update, BTree::update_leaves_with_arg_in_ranges, BTree::insert_many_by_cursor, BTree::update_leaf_by_search"]}
{"id": "C50", "title": "Rope text is valid UTF-8 exactly if edits are at character boundaries", "statement": "to_string() returns the string if the bytes are UTF-8 and panics otherwise; after any history of inserts and deletes at character boundaries it returns the edited string; deleting a prefix that ends inside a character makes it panic.", "quantifier": "every rope, every history of character edits with fewer than 390626 bytes", "why_tests_cant": "depends on the byte lengths of all characters and on all split points of chunks", "anchors": ["src/generic_impl/rope.rs: Display for Rope, Rope::insert, Rope::delete_range"]}
{"id": "C51", "title": "get_elem_mut", "statement": "A write through get_elem_mut changes that element only; the tree stays valid if the element keeps its cache, and check() rejects the tree if not; a dead leaf gives None.", "quantifier": "every valid tree, every leaf index, every write", "why_tests_cant": "all trees and all writes", "anchors": ["src/lib.rs: BTree::get_elem_mut"]}
{"id": "C52", "title": "number of nodes", "statement": "The children counted by internal_avg_children_num are the inner nodes and elements, less the root; node_len() is at most 5/4 of the number of elements plus one, plus one node per level after drains.", "quantifier": "every tree reachable by any history", "why_tests_cant": "a bound over all histories", "anchors": ["src/lib.rs: BTree::internal_avg_children_num, BTree::node_len"]}
{"id": "C53", "title": "ranges given by bounds", "statement": "slice, slice_, split, update_with_split, GapBuffer::delete and Rope::delete_range treat every kind of range as the set of positions between its bounds; Unmergeable can only be sliced by ranges of length one.", "quantifier": "every element, every pair of included, excluded or missing bounds", "why_tests_cant": "all combinations of bounds and positions", "anchors": ["src/rle.rs: Sliceable::slice, Sliceable::slice_, Sliceable::split, Sliceable::update_with_split", "src/generic_impl/gap_buffer.rs: GapBuffer::delete, GapBuffer::slice_", "src/generic_impl/rope.rs: Rope::delete_range", "src/generic_impl/ord.rs: Unmergeable::_slice"]}
{"id": "C54", "title": "growth of the tree", "statement": "push, prepend and insert_by_path make depth() one larger exactly if a leaf is added and all nodes above it are full (or, when an element is split by the insertion, all but the lowest, which has one place left); otherwise depth() stays the same. A tree built by push alone has depth d for 2*6^(d-1) to 2*6^d - 1 elements.", "quantifier": "every valid tree, every element and cursor", "why_tests_cant": "needs trees of every height with every pattern of full nodes", "anchors": ["src/lib.rs: BTree::push, BTree::prepend, BTree::insert_by_path, BTree::split, BTree::depth"]}
{"id": "C55", "title": "rope fuzzing never fails", "statement": "The fuzz target rope.rs and the test function fuzz pass on every list of actions: rope and String stay equal in length and content, and check() holds after every action.", "quantifier": "every list of at most 130208 actions, every chunk capacity", "why_tests_cant": "a fuzzer runs a finite sample of the lists", "anchors": ["fuzz/fuzz_targets/rope.rs", "src/generic_impl/rope.rs: test::fuzz"]}
{"id": "C56", "title": "ordered-set fuzzing never fails", "statement": "The fuzz target ord.rs passes on every list of actions: OrdTreeSet<u8> and BTreeSet<u8> stay equal.", "quantifier": "every list of actions, of any length", "why_tests_cant": "a fuzzer runs a finite sample of the lists", "anchors": ["fuzz/fuzz_targets/ord.rs"]}
{"id": "C57", "title": "tests of ordered maps on all data", "statement": "test passes exactly on data without duplicates, move_event_test on distinct data exactly if something is left to check or nothing was deleted; test_compare_pos passes on all increasing keys, and compare_pos of the cursors of two keys is the order of the keys.", "quantifier": "all data, every ordered key type", "why_tests_cant": "the tests use fixed or pseudo-random data", "anchors": ["src/generic_impl/ord.rs: test, move_event_test::test, test_compare_pos"]}
{"id": "C58", "title": "tests of ropes from strings on all strings", "statement": "from_str passes exactly on strings that are not empty and fit into one chunk; from_iter and drain pass on all strings.", "quantifier": "all strings, every chunk capacity", "why_tests_cant": "the tests use decimal numerals only", "anchors": ["src/generic_impl/rope.rs: test::from_str, test::from_iter, test::drain"]}
{"id": "C59", "title": "tests of the range map for all sizes", "statement": "write_buffer_get_item, write_buffer_iter, write_buffer_drain and range_plus pass with any sizes, bounds and values in place of their constants.", "quantifier": "all sizes up to 781000, all values, every hash order", "why_tests_cant": "the tests use one size each and one hash order per run", "anchors": ["tests/integration.rs"]}
{"id": "C60", "title": "stored lengths are within the text", "statement": "Every length stored in a rope's tree lies between 0 and the length of the text; therefore test_index, which adds up the lengths before each position, passes on every rope.", "quantifier": "every valid rope, every stored child", "why_tests_cant": "needs every shape of tree", "anchors": ["src/generic_impl/rope.rs: RopeTrait, test::test_index", "src/lib.rs: BTree::visit_previous_caches"]}
{"id": "C61", "title": "inverted ranges are empty or rejected", "statement": "A range whose start lies after its end contains nothing: iter_range yields nothing, update changes nothing, drain removes nothing and Rope::delete_range deletes nothing, or the call panics and leaves the tree alone. (False of iter_range, update, drain and RangeNumMap: they run on to the end of the tree.)", "quantifier": "every valid tree, every pair of cursors of which the first is behind the second", "why_tests_cant": "tests use ordered ranges only", "anchors": ["src/lib.rs: BTree::iter_range, BTree::update, BTree::drain", "src/iter.rs: Drain::new, Drain::next, Drain::drop", "src/generic_impl/rope.rs: Rope::delete_range", "src/generic_impl/gap_buffer.rs: GapBuffer::delete", "tests/range_num_map/mod.rs: RangeNumMap::insert, RangeNumMap::plus"]}
{"id": "C62", "title": "leaking a Drain leaves a usable tree", "statement": "If a Drain is leaked (std::mem::forget) instead of dropped, the tree can still be read, as is the case for the containers of the standard library. (False of the code once next() has returned an element: the node still lists the removed leaf, iter panics, and check() does not notice.)", "quantifier": "every valid tree, every range, every number of calls of next before the leak", "why_tests_cant": "the destructor always runs in tests", "anchors": ["src/iter.rs: Drain::new, Drain::next, Drain::drop", "src/lib.rs: BTree::drain, BTree::iter, BTree::check"]}
{"id": "C63", "title": "check() accepts only valid trees", "statement": "If check() succeeds on a state of the two arenas, reachable or not, then the tree is valid: iter() yields every stored leaf exactly once and the caches are right. (False of the code: the leaves that nodes list are skipped. With right lists of leaves it is an equivalence.)", "quantifier": "all states of the arenas, every trait", "why_tests_cant": "tests run check() on trees made by the crate only, which are valid", "anchors": ["src/lib.rs: BTree::check"]}
{"id": "C64", "title": "the range map with drains is an array", "statement": "After any sequence of insert, plus and drain the length and every lookup of RangeNumMap are those of an array of optional numbers, each drain yields the runs of the values it removes, and iter yields the runs of the values left (gaps closed up, see C48).", "quantifier": "all histories of valid steps, every hash order", "why_tests_cant": "tests drain once, at the end", "anchors": ["tests/range_num_map/mod.rs: RangeNumMap", "src/iter.rs: Drain", "src/lib.rs: BTree::update"]}
{"id": "C65", "title": "cursors outside the tree are rejected", "statement": "If the leaf of a cursor has been removed or its offset lies behind the element, insert_by_path, insert_many_by_cursor, update and Drain::new panic instead of changing the tree; so a drain of positions beyond the end panics.", "quantifier": "every valid tree, every such cursor", "why_tests_cant": "tests use cursors from queries on the same tree", "anchors": ["src/lib.rs: BTree::insert_by_path, BTree::insert_many_by_cursor, BTree::update, BTree::split_leaf_if_needed", "src/iter.rs: Drain::new", "tests/range_num_map/mod.rs: RangeNumMap::drain"]}
{"id": "C66", "title": "cursors move with the text", "statement": "A cursor kept across an edit elsewhere in the tree stays on the same unit: before the edited leaves its position is unchanged, behind them it moves by the number of units inserted or removed (insert_by_path, insert_many_by_cursor, remove_leaf, update_leaf, update_leaf_by_search, drain, update). In the leaf insert_by_path inserts into, the new units start at the cursor returned, cursors before it keep their position, and the units behind it are found from the cursor and the split leaves that are returned.", "quantifier": "every valid tree, every cursor into a leaf outside the edited ones, and for insert_by_path every cursor", "why_tests_cant": "tests never reuse a cursor after an edit", "anchors": ["src/lib.rs: BTree::insert_by_path, BTree::remove_leaf, BTree::update, BTree::drain, BTree::update_leaf, BTree::update_leaf_by_search, BTree::insert_many_by_cursor", "src/iter.rs: Drain"]}
{"id": "C67", "title": "a tree edited by position is a list", "statement": "For every trait whose elements are runs of units and whose caches hold lengths, any history of push, prepend, insert by position, drain by position, update by position with a closure on units, and clear changes the units that iter yields as the same edits change a list; drains yield the units they remove; nothing panics.", "quantifier": "all such traits, all histories of valid edits, every hash order", "why_tests_cant": "tests cover single operations or the rope only", "anchors": ["src/lib.rs: BTree::push, BTree::prepend, BTree::insert, BTree::drain_by_query, BTree::update, BTree::clear, BTree::iter", "src/iter.rs: Drain", "src/generic_impl/len_finder.rs: LengthFinder"]}
{"id": "C68", "title": "loops take one round per level", "statement": "Every loop of the tree that descends (query, first_leaf, last_leaf, depth), climbs (caches, paths, neighbours, compare_pos) or repairs (split, merge, removal of empty nodes) comes to its end within as many rounds as depth() says, from every node; depth is logarithmic in the number of elements, and the binary search over n children ends within 1 + log2(n + 1) rounds.", "quantifier": "all traits whose callbacks end, all valid trees, all nodes", "why_tests_cant": "tests do not count rounds; a loop that takes longer on rare shapes passes them", "anchors": ["src/lib.rs: BTree::query_with_finder_return, BTree::recursive_update_cache, BTree::split, BTree::handle_lack_recursively, BTree::remove_internal_node, BTree::next_same_level_in_node, BTree::get_path, BTree::compare_pos", "src/generic_impl/ord.rs: find_node"]}
{"id": "C69", "title": "ranges over elements of length zero", "statement": "drain and update treat a range between any two cursors that are in order as cutting the sequence at both cursors and working on the middle, also when elements have length zero; caches stay exact.", "quantifier": "all traits with lengths, all valid trees with elements of any length, all pairs of cursors in order, all closures and hash orders", "why_tests_cant": "tests contain no elements of length zero, and the wrong cache arises only if such an element is the last of its node", "anchors": ["src/iter.rs: Drain::new, Drain::drop", "src/lib.rs: BTree::drain, BTree::update, BTree::split_leaf_if_needed"]}
{"id": "C70", "title": "every stored cache belongs to a block of the sequence, and fields of fixed width do not overflow", "statement": "In a valid tree the cache stored for any child is the aggregate of a contiguous non-empty block of the sequence; length caches lie between 0 and the total length; nodes have at most 11 children, so slots fit u8 and never equal the placeholder 255; gap buffer fields fit u16; the fixed vector of split leaves (capacity 2) never overflows.", "quantifier": "all valid trees of all traits, all nodes; for the vector of split leaves all trees, valid or not", "why_tests_cant": "a stale inner cache or a truncated cast shows only in rare shapes", "anchors": ["src/lib.rs: Node, SplittedLeaves, BTree::recursive_update_cache, BTree::insert_by_path, BTree::update, BTree::update_leaf, BTree::update_leaf_by_search", "src/generic_impl/gap_buffer.rs: GapBuffer"]}
{"id": "C71", "title": "reusing arena slots cannot be observed", "statement": "A program that stores, reads, writes, removes and compares indices of an arena gets the same results whether the arena reuses slots with generations (as the dependency does) or never reuses positions (as the model does), if it inserts at most 2^32-1 times; with one insertion more a removed index can read a new entry.", "quantifier": "all programs, also adaptive ones, all values", "why_tests_cant": "confusing a stale index with a new node needs a particular history of removals and insertions; wrap-around needs 2^32 of them", "anchors": ["src/lib.rs: BTree (in_nodes, leaf_nodes), ArenaIndex, LeafIndex"]}
{"id": "C72", "title": "to a program, the tree is a sequence", "statement": "A program that owns a tree and calls its public methods, choosing each call by what earlier calls returned, runs without a panic and returns what the same program may return on a plain list of elements with leaf numbers, as long as it keeps the preconditions of the calls, which are stated on that list.", "quantifier": "all programs over 29 methods, all traits that obey the cache laws, all trees", "why_tests_cant": "tests run fixed sequences of calls; an adaptive caller reaches combinations of cursors and shapes nobody wrote down", "anchors": ["src/lib.rs: BTree (all public methods that read or change elements)"]}
{"id": "C73", "title": "OrdTreeMap does not depend on the algorithm of binary_search_by", "statement": "The standard library documents what slice::binary_search_by returns on a partitioned slice, not how it searches, and the algorithm has changed.  Over any function that meets the documented contract, every lookup, insertion, deletion and history of an OrdTreeMap gives the same results and the same tree; the contract lets different positions be returned when several elements match, and this never happens in a valid map.", "quantifier": "all functions that meet the contract, all maps reachable or valid, all keys, all histories", "why_tests_cant": "tests run with the one standard library they are compiled with", "anchors": ["src/generic_impl/ord.rs: Query::find_node, insert, delete"]}
{"id": "C74", "title": "Caches can be repaired by hand", "statement": "get_elem_mut lends out elements and recursive_update_cache is public.  For every program of writes and of repairs (plain, with the diff worked out by the tree, or with a given correct diff) no call panics, the elements are the written ones, the root cache is that of the elements the caches were last told about, and the tree is valid - and passes check() - exactly if every leaf whose cache changed was repaired after its last such write.  In a rope a repair with a given diff leaves a valid tree exactly if the diff is the difference of the lengths.", "quantifier": "all valid trees, all programs of writes and repairs in any order, all traits that obey the laws", "why_tests_cant": "a forgotten or wrong repair shows only in later searches, and depends on the levels above the leaf", "anchors": ["src/lib.rs: get_elem_mut, recursive_update_cache, recursive_update_cache_with_diff"]}
{"id": "C75", "title": "A search with any finder ends at the first hit", "statement": "Query is a public trait.  If find_node, given the children of one node, chooses the child where a predicate on prefixes of the sequence becomes true, and the predicate stays true once it is true, then the search ends at the one element of the whole sequence where the predicate becomes true, or at the last element if it never does; the finder has then taken in exactly the elements before it, and found says whether the predicate holds of the whole sequence.  LengthFinder is such a finder, and so is one that adds up caches until a predicate of the sum holds.  On an empty tree the finder is not asked.", "quantifier": "all valid trees, all traits that obey the laws, all finders that choose rightly among the children of one node", "why_tests_cant": "finders are written by users; a test exercises one finder on a few trees", "anchors": ["src/lib.rs: Query, query_with_finder_return, query", "src/generic_impl/len_finder.rs: LengthFinder"]}
{"id": "C76", "title": "iter_with_filter with a closure that has a state", "statement": "iter_with_filter takes an FnMut and returns a lazy iterator.  For every closure next() never panics, the items are a subsequence of the elements, and after the last item None is returned for ever; the closure is asked at most once about every stored cache, level by level from left to right, and all of it in the first call of next().  If the answers depend on the cache only, the items are those of the exhaustive run (C41) and the caches asked about are exactly those whose ancestors were accepted.", "quantifier": "all valid trees, all closures with any state, any number of calls of next", "why_tests_cant": "the order of the questions depends on the shape of the tree, which tests do not see", "anchors": ["src/lib.rs: iter_with_filter"]}
{"id": "C77", "title": "Debug and diagnose_balance show the tree as it is", "statement": "On a valid tree {:?} never panics and prints one line for every stored node: the outline of the tree, in which every inner node is shown with its place among its siblings and the cache its parent keeps of it, and every element in order with its index, its parent and its own cache, indented by the height of the tree.  The tables of diagnose_balance count the lengths of the elements (adding up to the total length) and the children of the inner nodes (adding up to all nodes but the root, no row above 11, at most the root below the minimum).", "quantifier": "all valid trees of any type", "why_tests_cant": "output is looked at by people, not by tests", "anchors": ["src/lib.rs: impl Debug for BTree", "src/lib.rs: diagnose_balance"]}
{"id": "C78", "title": "The iterators yield their items one at a time and nothing after the end", "statement": "iter() and iter_range() return lazy iterators.  For every k, k calls of next give the first k items in order and None for every call after the last one, without a panic; what can panic (a tree of ten levels or more) does so when the iterator is made, even if it is never used.  A Drain that has answered None is unchanged and answers None again.", "quantifier": "all valid trees of at most nine levels, all numbers of calls; iter_range also on invalid trees, whenever the run to the end succeeds", "why_tests_cant": "tests run iterators to the end; nobody asks again after None", "anchors": ["src/lib.rs: iter, iter_range, _iter_range, next_sibling", "src/iter.rs: Iter::next, Drain::next"]}
{"id": "C79", "title": "visit_previous_caches visits as few caches as possible", "statement": "The caches passed to the closure are stored caches that follow each other without gap or overlap from the first element to the cursor's element.  No collection of stored caches that stands for exactly the elements before the cursor, overlapping or not, is smaller: a whole subtree before the cursor contributes one cache.  There are at most ten for each level.  Every stored cache is the combination of the elements it stands for.", "quantifier": "all valid trees of at most nine levels, all cursors, all collections of stored caches", "why_tests_cant": "tests compare the sum of the caches, which is the same if every element is visited", "anchors": ["src/lib.rs: visit_previous_caches, get_path"]}
{"id": "C80", "title": "An edit changes few of the stored nodes", "statement": "insert_by_path, push, prepend, remove_leaf and update_leaf leave all stored nodes (internal nodes and leaves) as they are except for a number that is linear in the height of the tree: 45h+35, 23h+6, 23h+6, 30h+16 and 30h+16.  With at least two children per node this is logarithmic in the number of elements; OrdTreeMap::insert and delete change at most 23 log2(len) + 29 and 30 log2(len) + 46 nodes.  drain, apart from the nodes that it frees, changes at most 54h(5h+2)+63h+71 nodes, however long the range is.  update_leaf_by_search changes at most 30h+16 nodes; insert_many_by_cursor with n elements at most (n+1)(45(h+n)+80); Rope::insert of b bytes, with q = b / chunk capacity, at most (q+3)(45(h+q)+170); Rope::delete_range, apart from the freed nodes, as many as drain.", "quantifier": "all valid trees of any height, all traits that satisfy the laws, all positions and elements, all successful calls", "why_tests_cant": "a test sees the content, not which nodes were rewritten; an edit that rewrites half the tree gives the same answers", "anchors": ["src/lib.rs: insert_by_path, split_leaf_if_needed, split, split_root, push, prepend, remove_leaf, remove_internal_node, handle_lack_single_layer, try_reduce_levels, update_leaf, update_leaf_by_search, insert_many_by_cursor, recursive_update_cache", "src/iter.rs: Drain::new, next, drop", "src/generic_impl/ord.rs: insert, delete", "src/generic_impl/rope.rs: insert, delete_range"]}
{"id": "C81", "title": "The benchmarks and the example compute what they are compared with", "statement": "The programs of benches/ and examples/ run the same data on a rope and a String, or on an OrdTreeSet and a BTreeSet, without comparing the results.  For any actions (while the text is below 390626 bytes, in particular for any 130208 random actions) the rope program does not panic and ends with the text of the String program; the example, which repeats its actions on one rope, likewise, and at any size if nothing is deleted.  The program that replays the history of a text panics exactly if some insertion is beyond the end of the text, and otherwise has its bytes; the positions count bytes, which agrees with the characters of the data set for ASCII only.  The two sets have the same members in the same order for any keys.", "quantifier": "all lists of actions, all numbers of repetitions, all histories of a text, all lists of keys of any ordered type, all chunk capacities", "why_tests_cant": "benchmarks measure time and check nothing; they run on one seed and one data set", "anchors": ["benches/bench_rope.rs: bench_random, bench_automerge", "benches/bench_ord.rs: bench", "examples/rope.rs: main, bench", "src/generic_impl/rope.rs: insert, delete_range, len", "src/generic_impl/ord.rs: OrdTreeSet::insert"]}
{"id": "C82", "title": "The fixed unit tests hold for all data", "statement": "With their built-in data made parameters, the unit tests basic and slice of gap_buffer.rs, test, test_delete_middle, test_insert_repeatedly, test_clear, test_insert_many, test_repeat_insert and ben of rope.rs, test_delete and depth_test of ord.rs and basic of tests/integration.rs pass exactly if the expected values are the right ones (strings with characters of any width, cut at character boundaries; up to 390625 bytes, 20155391 keys, 781000 positions).  test_delete also passes if another key is deleted than was inserted; test_clear fails with two inserts before and two after clear() and the right expected text; test_update can never pass.", "quantifier": "all strings, positions, byte lists, lists of actions, keys, ranges, values and expected values; all chunk capacities; all orders of the hash maps", "why_tests_cant": "each test is one run on hand-made data of a few bytes; whether its assertions would hold for other data, and whether they would notice the known defects, it cannot show", "anchors": ["src/generic_impl/gap_buffer.rs: test::basic, test::slice", "src/generic_impl/rope.rs: test::{test, test_delete_middle, test_insert_repeatedly, test_update, test_clear, test_insert_many, test_repeat_insert, ben}", "src/generic_impl/ord.rs: test::test_delete, test::depth_test", "tests/integration.rs: basic", "src/generic_impl/rope.rs: insert, delete_range, clear"]}
{"id": "C83", "title": "A lawless Ord cannot break OrdTreeMap", "statement": "Whatever the comparison of keys answers (no reflexivity, antisymmetry or transitivity; another comparison in every call) and wherever in range the binary search ends, no history of insert and delete from new() panics: the tree stays valid, len is the number of pairs; with fewer than 20155392 pairs iter shows them all and a map that is not empty passes check().  An insertion puts its pair next to some pair (behind it exactly if its key is called smaller) or replaces the value of a pair whose key is called equal; a deletion removes one pair and returns it, or finds the map empty.  Every key and value in the map or returned was inserted; if no comparison says equal, the map and the pairs returned are a permutation of the pairs inserted.", "quantifier": "all key and value types; all comparisons, one per call; all search functions that stay in range, in particular both versions of the standard library; all histories", "why_tests_cant": "tests use integers with their lawful order; a wrong Ord is a bug of the user whose consequences would have to be tried for every wrong comparison", "anchors": ["src/generic_impl/ord.rs:33-87", "src/generic_impl/ord.rs:258-305"]}
{"id": "C84", "title": "Wrong caches lose no element", "statement": "push, prepend, insert_by_path, remove_leaf and clear never look at a cache to decide what to do: on two trees that are the same node for node but for the caches, with any two sets of functions on caches that do not panic (also of different types), they fail together or return the same and again give trees that differ in the caches only.  So with any such functions on caches, however wrong, no history from new() fails, its elements are those of the abstract sequence, the iterator visits them all, and the tree without its caches is valid; the same from any tree whose caches have been damaged, and for histories that prepend to empty trees (after which C02 leaves a wrong root cache).", "quantifier": "all traits with well-behaved functions on elements and any total functions on caches; all trees, all histories", "why_tests_cant": "a test uses one implementation of the caches, almost always a right one; that no control flow depends on a cache is a statement about all of them", "anchors": ["src/lib.rs: 451-459, 510-680, 934-1010, 2220-2310, 2428-2562", "src/lib.rs: push, prepend, insert_by_path, remove_leaf, split, handle_lack, recursive_update_cache"]}
{"id": "C85", "title": "Wrong caches do not mislead drain and update", "statement": "drain, update_leaf and update never look at a cache to decide what to do either: on two trees that differ in their caches only, with any two sets of functions on caches that do not panic and closures that report different differences, they fail together or yield the same, split off the same leaves and give trees that differ in their caches only.  So on a tree that is valid apart from its caches, drain yields exactly the elements of the range and keeps the others, update replaces exactly the elements of the range by the results of the closure, and update_leaf keeps exactly the surviving elements; the tree stays valid apart from its caches.  The conditions of C20 and C21 on the answers of the closures about caches (need_update, the reported differences, neutral caches of elements that may be removed) are not needed for this.  The same for all histories of these and the calls of C84, up to a panic of a tree of more than eight levels (C24).", "quantifier": "all traits with well-behaved functions on elements of positive length and any total functions on caches; all closures on elements; all trees with any caches, ranges, points at which the drain is dropped, orders of the hash maps and histories", "why_tests_cant": "the closures of the tests report the right differences and the caches of the tests are right; that a wrong one cannot lose an element is a statement about all of them", "anchors": ["src/iter.rs: 25-282", "src/lib.rs: 989-1080, 1258-1400, 1512-1625", "src/lib.rs: update, update_leaf, update_dirty_cache_map, drain"]}
{"id": "C86", "title": "A search that goes wrong still ends at a leaf", "statement": "On a tree that is valid apart from its caches (which may hold anything) every search with a finder that picks one of the children it is shown, any of them, ends without a panic at a leaf of the tree, with the answer of the finder for this leaf; on an empty tree it finds nothing.  If the finder stays within the elements, insert by this search inserts at some cursor of the tree and keeps everything else, and removing the leaf found removes exactly this element.  The finder by length picks a child whatever the caches say, so a search by length never panics, and an insertion by length panics (offset behind the leaf) or inserts at some cursor of the tree; the search of the ordered map does so with any comparison and any binary search that stays in range unless a cache is None, and answers with the start or the end of a pair.  first_leaf, last_leaf, next_elem, prev_elem and iter_range do not depend on caches at all.", "quantifier": "all trees valid apart from their caches; all finders that pick a child, with any state and any argument; all length functions and comparisons; the trees of all histories of C84 and C85", "why_tests_cant": "a search is tested with the finder and the caches of the crate, which are right; how far a wrong one can go has to be shown for all wrong ones", "anchors": ["src/lib.rs: 499-508, 873-925", "src/generic_impl/len_finder.rs: 37-91", "src/generic_impl/ord.rs: 258-305", "src/lib.rs: query, query_with_finder_return, insert, next_elem, prev_elem, first_leaf, last_leaf, iter_range"]}
{"id": "C87", "title": "The remaining operations with wrong caches", "statement": "update_leaf_by_search, insert_many_by_cursor and update_leaves_with_arg_in_ranges do not depend on the caches either, apart from the children that the finder picks: on two trees that differ in their caches only, with any two sets of functions on caches that do not panic, with a finder that goes the same way in both trees and closures that report different differences, they fail together or return the same and give trees that differ in their caches only.  So on a tree that is valid apart from its caches, update_leaf_by_search changes, splits or removes exactly the leaf that the same search by query ends at, whatever difference the closure reports, and with any finder that picks one of the children shown it does not panic; insert_many_by_cursor adds exactly the units of the data, at the places of C24; update_leaves_with_arg_in_ranges maps exactly the units of the ranges, whatever sub_cache computes.  The tree stays valid apart from its caches.", "quantifier": "all traits with well-behaved functions on elements and any total functions on caches; all trees valid apart from their caches; all finders, closures, cursors and data", "why_tests_cant": "a test checks the elements after an operation on a tree with right caches; that a wrong difference or a wrong cache does not also corrupt the elements or the links is a claim about all wrong caches", "anchors": ["src/lib.rs: 677-749, 1107-1249, 1396-1503", "src/lib.rs: insert_many_by_cursor, update_leaf_by_search, update_leaves_with_arg_in_ranges"]}
{"id": "C88", "title": "Histories of all operations with wrong caches", "statement": "Histories that mix all mutating operations (push, prepend, insertion, removal, clear, update_leaf, drain, update, update_leaves_with_arg_in_ranges, insert_many_by_cursor and update_leaf_by_search) on a tree that is valid apart from its caches: whatever the caches hold, whatever the functions on caches return and whatever differences the closures report, no step panics (trees of more than eight levels excepted for drain and update, more than ten for update_leaf_by_search) and the tree stays valid apart from its caches.  Without clear, every leaf that no step touches keeps its index, its element and its place in the order, and an index that was given out but is dead stays dead.", "quantifier": "all traits with well-behaved functions on elements and any total functions on caches; all trees valid apart from their caches; all histories of all operations with all finders, closures and orders of the hash maps", "why_tests_cant": "tests run short histories with correct caches; that damage to caches stays confined to caches over any history is a statement about all histories and all wrong caches", "anchors": ["src/lib.rs: 499-925, 989-1625", "src/iter.rs: 25-282", "src/lib.rs: update, update_leaf, update_leaf_by_search, insert_many_by_cursor, update_leaves_with_arg_in_ranges, drain, get_elem"]}
{"id": "C89", "title": "Wrong caches can be recomputed", "statement": "recursive_update_cache without a difference recomputes the caches of a leaf and of all nodes above it from scratch.  Called once or more for every leaf of a tree that is valid apart from its caches, in any order, it never panics and makes the tree valid with the same elements; if the tree differed from a valid tree in its caches only, the result is exactly that tree, node for node.  It is enough to repair leaves such that every wrong entry is that of a repaired leaf or of a node above one; one leaf is enough for a wrong root cache.  So after any history of operations on a tree with any caches (C88) a repair restores validity.  For ropes and the range map the caches may hold anything before, for the ordered map any bounds but not None (then every repair of a map of two levels panics).  A repair by differences (can_use_diff without a given difference) does not correct a wrong root cache.", "quantifier": "all traits that satisfy the laws, all trees valid apart from their caches, all wrong caches on which calc_cache_internal works, all orders and repetitions of repairs", "why_tests_cant": "that no order of repairs leaves a stale node behind is a statement about all shapes and all wrong caches; tests start from right caches", "anchors": ["src/lib.rs: 2220-2287", "src/lib.rs: recursive_update_cache, recursive_update_cache_with_diff", "src/generic_impl/ord.rs: 228-237"]}
{"id": "C90", "title": "The iteration order of the hash maps cannot be observed", "statement": "update and update_leaves_with_arg_in_ranges collect differences of caches in a hash map and visit the nodes of each level in the iteration order of a hash set.  For update the whole result (tree with every cache and arena slot, state of the closure, new leaves, or a panic) is the same for every two such orders; if the closure reports no differences this holds on any tree, even an invalid one, so the range map of the tests is fully deterministic.  For update_leaves_with_arg_in_ranges, which also inserts the new pieces in the order of a hash map, the elements, the state of the closure, the number of new leaves and the root cache are the same; the whole result is the same if all ranges are in one leaf, or if only the order of visits differs.  The leaf indices of the new pieces do depend on the order of the second map (witness).  Histories of all operations end with the same tree.", "quantifier": "all traits that obey the contract, all valid trees of any height, all closures, all two permutations as iteration orders, all histories", "why_tests_cant": "the iteration order of a hash map is fixed by the hash function and the capacity: a test sees one order per input", "anchors": ["src/lib.rs: 1396-1503, 1512-1560, 989-1057", "src/lib.rs: update_dirty_cache_map, update, update_leaves_with_arg_in_ranges"]}
{"id": "C91", "title": "A panic of a closure leaves a tree that is valid apart from its caches", "statement": "If the closure of update, update_leaf, update_leaf_by_search or update_leaves_with_arg_in_ranges panics and the panic is caught, the tree left is valid apart from its caches: all links, levels and fill grades are intact, and the leaves keep their indices and their order.  update has made its cuts, applied the closure to the elements before the panic and kept what the closure left in the element of the panic; it has removed nothing, and the elements behind are untouched.  update_leaf and update_leaf_by_search have changed the one element, also if the unimplemented!() after the closure is reached.  update_leaves_with_arg_in_ranges has changed a prefix of the leaves in the order of the groups; each of them holds the piece before its first cut, after the calls for it up to the panic.  Recomputing the caches for just these leaves makes the tree valid.  update_leaves_with_arg_in_ranges can lose units that the closure never saw, since cut pieces are kept in local variables until the end (witness).  Apart from what is left, the functions behave as without panics, on all trees.", "quantifier": "all traits that satisfy the laws, all valid trees (at most 8 levels for update), all closures with state that panic at any call and leave a valid element, all cursors, finders, ranges and orders of the groups", "why_tests_cant": "tests have no panicking closures; that no panic at any call leaves a broken link is a claim about all trees and all points of unwinding", "anchors": ["src/lib.rs: 989-1057, 1107-1250, 1258-1275, 1396-1503", "src/lib.rs: update, update_leaf, update_leaf_by_search, update_leaves_with_arg_in_ranges"]}
{"id": "C92", "title": "Panics of closures can be caught any number of times", "statement": "A program that catches every panic of a closure and goes on with the tree as it is left can do so for ever: every further operation, and every further panic that is caught, works on the tree although its caches are out of date.  All links stay intact, nothing goes wrong because of an earlier panic, leaves that no step touched keep their elements and their order, and recomputing the caches of all leaves at the end makes the tree valid.", "quantifier": "for every cache law with total recomputation, every valid start tree and every finite sequence of correctly called operations, with closures that panic in update, update_leaf, update_leaf_by_search or update_leaves_with_arg_in_ranges leaving a valid element; all elements of length > 0 for update and drain", "why_tests_cant": "combinations of several panics with arbitrary operations between them are unbounded in number and tests do not inject panics at all", "anchors": ["src/lib.rs: 989-1057", "src/lib.rs: 1107-1250", "src/lib.rs: 1258-1384", "src/lib.rs: 1396-1503", "src/lib.rs: update, update_leaf, update_leaf_by_search, update_leaves_with_arg_in_ranges"]}
