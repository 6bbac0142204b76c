{
 "claims": [
  {
   "property": "C01",
   "status": "proved",
   "theorems": [
    "GB.C01_push",
    "GB.C01_push_content"
   ],
   "note": "every valid tree, any lawful element type"
  },
  {
   "property": "C02",
   "status": "partial",
   "theorems": [
    "GB.C02_prepend_partial",
    "GB.C02_prepend_content_partial",
    "GB.C02_prepend_empty_partial",
    "GB.C02_empty_exact",
    "GB.C02_false_on_empty"
   ],
   "note": "proved for non-empty trees; on the empty tree the statement is false: root_cache is left stale (witness C02_false_on_empty); C02_empty_exact: on every empty tree prepend is push except for the root cache"
  },
  {
   "property": "C03",
   "status": "proved",
   "theorems": [
    "GB.C03_insert_by_path",
    "GB.C03_insert_content",
    "GB.C03_insert_local"
   ],
   "note": "every valid tree, every valid cursor"
  },
  {
   "property": "C04",
   "status": "proved",
   "theorems": [
    "GB.C04_remove_leaf",
    "GB.C04_remove_any"
   ],
   "note": "every valid tree, every leaf index"
  },
  {
   "property": "C05",
   "status": "proved",
   "theorems": [
    "GB.C05_dead_inert",
    "GB.C05_stale_forever",
    "GB.C05_clear_alias"
   ],
   "note": "for histories without clear(); clear() restarts the arenas and may reuse an index (C05_clear_alias)"
  },
  {
   "property": "C06",
   "status": "partial",
   "theorems": [
    "GB.C06_check_means",
    "GB.C06_check_partial",
    "GB.C06_check_nonempty_partial",
    "GB.C06_check_iff",
    "GB.C06_emptied",
    "GB.C06_ord_false_always",
    "GB.C06_ord_false_when_emptied"
   ],
   "note": "C06_check_iff says exactly when check() passes on a valid tree; C06_ord_false_always: it fails after every removal of the last key of an OrdTreeMap; proved for trees whose root cache of the empty sequence is the default and for all non-empty results; false for OrdTreeMap after deleting the last element (witness)"
  },
  {
   "property": "C07",
   "status": "proved",
   "theorems": [
    "GB.C07_root_cache",
    "GB.C07_rope_length",
    "GB.C07_ord_min_max"
   ],
   "note": "any lawful element type, instantiated for ropes and ordered maps"
  },
  {
   "property": "C08",
   "status": "proved",
   "theorems": [
    "GB.C08_iter",
    "GB.C08_iter_size"
   ],
   "note": ""
  },
  {
   "property": "C09",
   "status": "proved",
   "theorems": [
    "GB.C09_query_len",
    "GB.C09_finder",
    "GB.C09_finder_empty"
   ],
   "note": ""
  },
  {
   "property": "C10",
   "status": "proved",
   "theorems": [
    "GB.C10_insert"
   ],
   "note": ""
  },
  {
   "property": "C11",
   "status": "proved",
   "theorems": [
    "GB.C11_next_elem",
    "GB.C11_prev_elem",
    "GB.C11_inverse"
   ],
   "note": ""
  },
  {
   "property": "C12",
   "status": "proved",
   "theorems": [
    "GB.C12_prefer_right",
    "GB.C12_prefer_left"
   ],
   "note": ""
  },
  {
   "property": "C13",
   "status": "partial",
   "theorems": [
    "GB.C13_shift_partial",
    "GB.C13_end_partial",
    "GB.C13_false_at_node_end"
   ],
   "note": "proved from offsets inside the element, and at its end if the same node has a unit behind it; C13_end_partial also shows that the cursor does not move in all other cases, so the claim is false there (witness C13_false_at_node_end)"
  },
  {
   "property": "C14",
   "status": "proved",
   "theorems": [
    "GB.C14_compare_pos"
   ],
   "note": ""
  },
  {
   "property": "C15",
   "status": "proved",
   "theorems": [
    "GB.C15_visit",
    "GB.C15_rope_position"
   ],
   "note": ""
  },
  {
   "property": "C16",
   "status": "proved",
   "theorems": [
    "GB.C16_iter_range",
    "GB.C16_iter_all",
    "GB.C16_unbounded_empty_panics"
   ],
   "note": "the unbounded range on an empty tree panics, as recorded by the last theorem"
  },
  {
   "property": "C17",
   "status": "proved",
   "theorems": [
    "GB.C17_ends"
   ],
   "note": ""
  },
  {
   "property": "C18",
   "status": "proved",
   "theorems": [
    "GB.C18_drain",
    "GB.C18_drain_content",
    "GB.C18_drain_by_query",
    "GB.C18_panics_iff",
    "GB.C18_height"
   ],
   "note": "conditions: positive element lengths, start before the end of the tree (C19); right for trees of at most 8 levels (path capacity), which holds below 781250 elements, and for trees of any height whenever the call does not panic; C18_panics_iff says exactly when it panics"
  },
  {
   "property": "C19",
   "status": "partial",
   "theorems": [
    "GB.C19_empty_range_partial",
    "GB.C19_false_empty",
    "GB.C19_false_at_end"
   ],
   "note": "false of the code: dropping the iterator panics on an empty tree and at the very end of the tree (witnesses); everywhere else an empty range is proved to be a no-op"
  },
  {
   "property": "C20",
   "status": "proved",
   "theorems": [
    "GB.C20_update_leaf",
    "GB.C20_content",
    "GB.C20_alive",
    "GB.C20_ord_kept",
    "GB.C20_neutral_needed"
   ],
   "note": "for closures whose removable results have a neutral cache; the last theorem shows that the caches go wrong otherwise"
  },
  {
   "property": "C21",
   "status": "proved",
   "theorems": [
    "GB.C21_update",
    "GB.C21_update_content",
    "GB.C21_panics_iff",
    "GB.C21_empty_range",
    "GB.C21_rope_diffs",
    "GB.C21_ord_diffs"
   ],
   "note": "arbitrary stateful closures with exact diffs, any hash order; positive element lengths as for C18; at most 8 levels, or any height if the call does not panic (C21_panics_iff says when); the documented call of the closure on an empty range does not happen (C21_empty_range)"
  },
  {
   "property": "C22",
   "status": "proved",
   "theorems": [
    "GB.C22_search",
    "GB.C22_update_leaf_by_search",
    "GB.C22_unreported",
    "GB.C22_panics",
    "GB.C22_too_high",
    "GB.C22_empty",
    "GB.C22_content"
   ],
   "note": "for trees of at most 10 levels (path capacity), higher ones panic (C22_too_high); diff exact in the sense of Exact; two new elements, or a removable element with a new one, panic as coded (C22_panics)"
  },
  {
   "property": "C23",
   "status": "partial",
   "theorems": [
    "GB.C23_update_ranges_partial",
    "GB.C23_update_units_partial",
    "GB.C23_false_empty_range",
    "GB.C23_exact",
    "GB.C23_false_empty_range_panics",
    "GB.C23_rope_sub",
    "GB.C23_range_sub"
   ],
   "note": "All ranges except empty ones at the edges of an element: proved for every tree, closure, multiset of overlapping ranges and hash order, per piece and per unit. False for an empty range at an edge (witnesses); C23_exact says what happens then: a panic exactly if the element has no cut, otherwise the range counts as the whole first or last piece."
  },
  {
   "property": "C24",
   "status": "partial",
   "theorems": [
    "GB.C24_insert_many_partial",
    "GB.C24_rope_chunks",
    "GB.C24_exact",
    "GB.C24_nothing_lost",
    "GB.C24_none",
    "GB.C24_false_none",
    "GB.C24_false_none_empty",
    "GB.C24_false_order"
   ],
   "note": "C24_exact says what the code does for all elements and live cursors, C24_none for the cursor None; false of the code: None with two or more elements panics, and elements can be merged into the leaf before the cursor's leaf although the cursor is not at its start (witnesses); proved in all other cases where the pre-merge keeps the order"
  },
  {
   "property": "C25",
   "status": "partial",
   "theorems": [
    "GB.C25_false",
    "GB.C25_false_contiguous",
    "GB.C25_exact",
    "GB.C25_content_perm",
    "GB.C25_permutation",
    "GB.C25_order_partial",
    "GB.C25_order_pairs_partial",
    "GB.C25_rope_chunks"
   ],
   "note": "C25_exact gives the exact order; false of the code: merge_adj reorders elements (witnesses); order kept with at most one merge, content kept up to permutation always"
  },
  {
   "property": "C26",
   "status": "proved",
   "theorems": [
    "GB.C26_from_iter",
    "GB.C26_from_iter_elems",
    "GB.C26_iter",
    "GB.C26_rope",
    "GB.C26_remove_after_collect",
    "GB.C26_remove_after_collect_false"
   ],
   "note": "occupancy of a collected tree is only 1; removing the only child of its last node leaves a stale root cache for OrdTrait (C26_remove_after_collect_false)"
  },
  {
   "property": "C27",
   "status": "proved",
   "theorems": [
    "GB.C27_clear",
    "GB.C27_clear_history"
   ],
   "note": ""
  },
  {
   "property": "C28",
   "status": "proved",
   "theorems": [
    "GB.C28_reachable",
    "GB.C28_node_len",
    "GB.C28_emptied"
   ],
   "note": ""
  },
  {
   "property": "C29",
   "status": "proved",
   "theorems": [
    "GB.C29_fill",
    "GB.C29_history",
    "GB.C29_depth"
   ],
   "note": ""
  },
  {
   "property": "C30",
   "status": "proved",
   "theorems": [
    "GB.C30_ord_depth",
    "GB.C30_ord_log"
   ],
   "note": "every history of inserts and deletes, absent keys included"
  },
  {
   "property": "C31",
   "status": "proved",
   "theorems": [
    "GB.C31_ord_insert",
    "GB.C31_ord_insert_iter"
   ],
   "note": ""
  },
  {
   "property": "C32",
   "status": "proved",
   "theorems": [
    "GB.C32_ord_delete_present",
    "GB.C32_set_delete_present"
   ],
   "note": ""
  },
  {
   "property": "C33",
   "status": "partial",
   "theorems": [
    "GB.C33_ord_delete_absent_partial",
    "GB.C33_false",
    "GB.C33_false_everywhere",
    "GB.C33_exact",
    "GB.C33_any_history"
   ],
   "note": "false of the code: delete ignores found and removes a neighbour of the gap (for every non-empty map and absent key); holds only on the empty map; C33_exact: always the first binding not below the key is removed, or else the last, and C33_any_history gives all results of every history"
  },
  {
   "property": "C34",
   "status": "proved",
   "theorems": [
    "GB.C34_ord_history",
    "GB.C34_ord_any_history",
    "GB.C34_set"
   ],
   "note": "iteration for maps below the size at which paths of ten entries overflow"
  },
  {
   "property": "C35",
   "status": "partial",
   "theorems": [
    "GB.C35_history_partial",
    "GB.C35_short_history_partial",
    "GB.C35_small_history",
    "GB.C35_any_history_partial",
    "GB.C35_delete_panics_iff",
    "GB.C35_read_iff",
    "GB.C35_nine_levels",
    "GB.C35_insert",
    "GB.C35_insert_out_of_range",
    "GB.C35_delete",
    "GB.C35_unbounded_false"
   ],
   "note": "false without a bound: a text of 20155392 chunks can be inserted but neither read nor deleted (path capacity, C35_unbounded_false); proven for every history, every chunk capacity, as long as the tree has at most 8 levels on the way (path capacity); without any hypothesis on the height for every history whose text stays below 390626 bytes (C35_short_history_partial), or 781250 bytes if deletes are of one byte; without any bound every history panics or is right (C35_any_history_partial), inserts never panic, and C35_delete_panics_iff and C35_read_iff say exactly which deletes and reads do; 8 levels is sharp (C35_nine_levels)"
  },
  {
   "property": "C36",
   "status": "partial",
   "theorems": [
    "GB.C36_fresh_partial",
    "GB.C36_false_always",
    "GB.C36_false_panic",
    "GB.C36_false_content",
    "GB.C36_clear_partial"
   ],
   "note": "false of the code: Rope::clear keeps the cached cursor (witnesses); C36_fresh_partial and C36_false_always: right for every later history (texts below 390626 bytes) if no cursor or the first leaf at position 0 is cached, wrong for some history of two inserts with every other cursor"
  },
  {
   "property": "C37",
   "status": "proved",
   "theorems": [
    "GB.C37_len",
    "GB.C37_history",
    "GB.C37_len_any_height"
   ],
   "note": "reading the text needs at most 9 levels (path capacity); the length itself needs no bound"
  },
  {
   "property": "C38",
   "status": "proved",
   "theorems": [
    "GB.C38_new_len",
    "GB.C38_insert_bytes",
    "GB.C38_push_bytes",
    "GB.C38_delete",
    "GB.C38_split",
    "GB.C38_slice",
    "GB.C38_slice_in_place",
    "GB.C38_merge",
    "GB.C38_try_insert",
    "GB.C38_push"
   ],
   "note": "every buffer with the gap inside the array, every capacity"
  },
  {
   "property": "C39",
   "status": "proved",
   "theorems": [
    "GB.C39_from_str"
   ],
   "note": "every positive capacity"
  },
  {
   "property": "C40",
   "status": "proved",
   "theorems": [
    "GB.C40_update_with_split",
    "GB.C40_empty_range",
    "GB.C40_default_split"
   ],
   "note": "any element type whose split cuts its content"
  },
  {
   "property": "C41",
   "status": "proved",
   "theorems": [
    "GB.C41_any_filter",
    "GB.C41_sound_filter",
    "GB.C41_rope_filter"
   ],
   "note": ""
  },
  {
   "property": "C42",
   "status": "proved",
   "theorems": [
    "GB.C42_any",
    "GB.C42_filtered",
    "GB.C42_all",
    "GB.C42_neutral",
    "GB.C42_root_cache_stale"
   ],
   "note": "C42_any covers arbitrary stateful closures against the traversal Shape.visit of the nested list; C42_all is the property as stated. The root cache is out of reach of the closures: C42_root_cache_stale"
  },
  {
   "property": "C43",
   "status": "proved",
   "theorems": [
    "GB.C43_step",
    "GB.C43_history",
    "GB.C43_drain",
    "GB.C43_filter"
   ],
   "note": "every operation under the preconditions of its own property (BOp.valid); histories keep the fill bound m, so drains occur in them only with m.lo = 1 and traits obeying LawE (RopeTrait); C43_drain is one drain for any trait. C43_filter concerns indices only, as its closures replace elements. clear() is excluded: it reuses indices (C05_clear_alias)"
  },
  {
   "property": "C44",
   "status": "proved",
   "theorems": [
    "GB.C44_empty",
    "GB.C44_range",
    "GB.C44_range_len"
   ],
   "note": ""
  },
  {
   "property": "C45",
   "status": "proved",
   "theorems": [
    "GB.C45_ord_lookup",
    "GB.C45_ord_lookup_present",
    "GB.C45_ord_lookup_absent"
   ],
   "note": ""
  },
  {
   "property": "C46",
   "status": "proved",
   "theorems": [
    "GB.C46_too_high",
    "GB.C46_push_iter",
    "GB.C46_push_limit",
    "GB.C46_iter_panics"
   ],
   "note": "iteration is not total: 2*6^9 pushes of unmergeable elements overflow NodePath (capacity 10) and iter() panics; the threshold is exact"
  },
  {
   "property": "C47",
   "status": "proved",
   "theorems": [
    "GB.C47_insert",
    "GB.C47_plus",
    "GB.C47_history",
    "GB.C47_history_small",
    "GB.C47_history_any",
    "GB.C47_insert_nothing"
   ],
   "note": "no panic below 781249 runs (8 levels, C21); with more every history panics or is right (C47_history_any); insert(0..0) on an empty map stores an element of length 0 (C47_insert_nothing), so histories exclude insertions to 0..0"
  },
  {
   "property": "C48",
   "status": "partial",
   "theorems": [
    "GB.C48_iter",
    "GB.C48_iter_partial",
    "GB.C48_iter_false",
    "GB.C48_drain",
    "GB.C48_drain_false"
   ],
   "note": "false: a run without a value does not advance the index, so later ranges are shifted left (C48_iter_false, C48_drain_false); C48_iter and C48_drain say exactly what is yielded; right when no gap comes before a value (C48_iter_partial)"
  },
  {
   "property": "C49",
   "status": "proved",
   "theorems": [
    "GB.C49_history",
    "GB.C49_history_no_drain",
    "GB.C49_depth",
    "GB.C49_thin_left_edge",
    "GB.C49_drain_then_remove_false"
   ],
   "note": "histories with drains for traits that obey LawE (RopeTrait); for OrdTrait a removal after a drain leaves a stale root cache (C49_drain_then_remove_false); on the left edge a drain can leave nodes with one child (C49_thin_left_edge)"
  },
  {
   "property": "C50",
   "status": "proved",
   "theorems": [
    "GB.C50_to_string",
    "GB.C50_history",
    "GB.C50_cut_panics"
   ],
   "note": ""
  },
  {
   "property": "C51",
   "status": "proved",
   "theorems": [
    "GB.C51_get_elem_mut",
    "GB.C51_same_cache",
    "GB.C51_other_cache"
   ],
   "note": ""
  },
  {
   "property": "C52",
   "status": "proved",
   "theorems": [
    "GB.C52_children",
    "GB.C52_space",
    "GB.C52_space_drained",
    "GB.C52_history",
    "GB.C52_history_drained"
   ],
   "note": "the final f64 division of internal_avg_children_num is not modelled"
  },
  {
   "property": "C53",
   "status": "proved",
   "theorems": [
    "GB.C53_slice",
    "GB.C53_split",
    "GB.C53_update_with_split",
    "GB.C53_gap_delete",
    "GB.C53_gap_slice",
    "GB.C53_rope_delete",
    "GB.C53_unmergeable",
    "GB.C53_unmergeable_split"
   ],
   "note": "overflow of x + 1 at usize::MAX is not modelled; Rope::delete_range for trees of at most 8 levels, or if it does not panic (C35_delete_panics_iff)"
  },
  {
   "property": "C54",
   "status": "proved",
   "theorems": [
    "GB.C54_push",
    "GB.C54_prepend",
    "GB.C54_insert",
    "GB.C54_push_height",
    "GB.C54_depth"
   ],
   "note": "trees that are not empty; insertions inside an element need a fill of at most 5, as in C03"
  },
  {
   "property": "C55",
   "status": "proved",
   "theorems": [
    "GB.C55_rope_fuzz",
    "GB.C55_rope_target"
   ],
   "note": "at most 130208 actions, so that the rope has at most 8 levels whatever happens; the string of a u8 has at most three bytes; dbg! output is not modelled"
  },
  {
   "property": "C56",
   "status": "proved",
   "theorems": [
    "GB.C56_ord_target"
   ],
   "note": "any number of actions: there are only 256 keys"
  },
  {
   "property": "C57",
   "status": "proved",
   "theorems": [
    "GB.C57_ord_test",
    "GB.C57_move_test",
    "GB.C57_compare_keys",
    "GB.C57_compare_test"
   ],
   "note": "sort_unstable is represented by its result, any sorted permutation; fewer than 20155392 keys where check or iter is run"
  },
  {
   "property": "C58",
   "status": "proved",
   "theorems": [
    "GB.C58_from_str",
    "GB.C58_from_iter",
    "GB.C58_drain"
   ],
   "note": "from_str passes exactly if the string is not empty and fits into one chunk; from_iter for texts of at most 10^9 bytes"
  },
  {
   "property": "C59",
   "status": "proved",
   "theorems": [
    "GB.C59_get",
    "GB.C59_iter",
    "GB.C59_plus",
    "GB.C59_drain"
   ],
   "note": "positions up to 781000 (8 levels, C21); range_plus if the range of plus reaches the end, as in the test"
  },
  {
   "property": "C60",
   "status": "proved",
   "theorems": [
    "GB.C60_cache_bounds",
    "GB.C60_test_index",
    "GB.C60_test_index_history"
   ],
   "note": "test_index for trees of at most 9 levels; histories with texts of fewer than 390626 bytes"
  },
  {
   "property": "C61",
   "status": "partial",
   "theorems": [
    "GB.C61_same_leaf_partial",
    "GB.C61_text_partial",
    "GB.C61_iter_range",
    "GB.C61_update",
    "GB.C61_drain",
    "GB.C61_range_map",
    "GB.C61_iter_range_false",
    "GB.C61_update_false",
    "GB.C61_drain_false",
    "GB.C61_range_map_false"
   ],
   "note": "false of the code: iter_range, update and drain of an inverted range run to the end of the tree, and dropping such a drain succeeds only if the two leaves share a parent; proved: inside one element the call panics before anything changes, Rope::delete_range and GapBuffer::delete do nothing; exact behaviour of the others"
  },
  {
   "property": "C62",
   "status": "partial",
   "theorems": [
    "GB.C62_unused_partial",
    "GB.C62_leak",
    "GB.C62_leak_false"
   ],
   "note": "false of the code once next has returned an element: iter panics although check succeeds; proved: exactly then, for every tree of at most 8 levels and every number of calls, and a drain leaked before its first next leaves a valid tree with the same content"
  },
  {
   "property": "C63",
   "status": "partial",
   "theorems": [
    "GB.C63_check_partial",
    "GB.C63_read_partial",
    "GB.C63_twice_false",
    "GB.C63_foreign_false",
    "GB.C63_cycle_false"
   ],
   "note": "false of the code: check() skips the leaves that nodes list, so it accepts trees that list a leaf twice, a leaf of another node or a leaf that is gone (C62_leak_false), and a root below itself; proved: with the condition Listed on exactly these entries check() accepts exactly the valid trees, for arbitrary states of the arenas"
  },
  {
   "property": "C64",
   "status": "proved",
   "theorems": [
    "GB.C64_history",
    "GB.C64_history_any"
   ],
   "note": "positions up to 390000 (the height of trees with a thin left edge), beyond that every history panics or is right; a drain must not be inverted (C61), reach beyond the end or begin there (C19, C65); insert(0..0) on an empty map is excluded as in C47"
  },
  {
   "property": "C65",
   "status": "proved",
   "theorems": [
    "GB.C65_insert",
    "GB.C65_insert_many",
    "GB.C65_update",
    "GB.C65_drain",
    "GB.C65_drain_beyond",
    "GB.C65_rope_insert",
    "GB.C65_range_insert",
    "GB.C65_range_drain"
   ],
   "note": "insertions under the condition that try_insert does not accept an offset behind the element, proved for the rope and the range map (the other instances never accept)"
  },
  {
   "property": "C66",
   "status": "proved",
   "theorems": [
    "GB.C66_insert",
    "GB.C66_insert_within",
    "GB.C66_remove",
    "GB.C66_drain",
    "GB.C66_update",
    "GB.C66_update_leaf",
    "GB.C66_by_search",
    "GB.C66_insert_many"
   ],
   "note": "cursors into the edited leaf itself are covered for insert_by_path; for drain and update the number of a leaf split off at the end is not part of the answer"
  },
  {
   "property": "C67",
   "status": "proved",
   "theorems": [
    "GB.C67_history",
    "GB.C67_history_any"
   ],
   "note": "up to 390625 units (height of trees with a thin left edge), beyond that every history panics or is right; elements of length 0 are excluded, prepend on an empty tree as in C02, drains from the very end as in C19; the ordered map is covered by C31-C34, it has no lengths in its caches"
  },
  {
   "property": "C68",
   "status": "proved",
   "theorems": [
    "GB.C68_query",
    "GB.C68_descend",
    "GB.C68_climb",
    "GB.C68_caches",
    "GB.C68_split",
    "GB.C68_lack",
    "GB.C68_remove",
    "GB.C68_log",
    "GB.C68_search",
    "GB.C68_rope",
    "GB.C68_ord",
    "GB.C68_iter",
    "GB.C68_seal",
    "GB.C68_seal_checked"
   ],
   "note": "rounds of the loops of the model, which are those of the code; the repairs are stated for a tree that is valid up to the number of children of the node they start from, the state in which the operations call them; of the loops over all elements, iter() is counted by the call of next, and of drain the repair at its end; the leaves a drain passes over, and update, are not counted"
  },
  {
   "property": "C69",
   "status": "partial",
   "theorems": [
    "GB.C69_update",
    "GB.C69_update_content",
    "GB.C69_update_panics_iff",
    "GB.C69_drain_partial",
    "GB.C69_drain_content_partial",
    "GB.C69_drain_panics_iff_partial",
    "GB.C69_drain_false"
   ],
   "note": "update holds for all lengths; drain holds unless the element behind the end of the range has length zero, and is false of the code in that case (C69_drain_false: stale root cache, check fails)"
  },
  {
   "property": "C70",
   "status": "proved",
   "theorems": [
    "GB.C70_caches",
    "GB.C70_lengths",
    "GB.C70_rope",
    "GB.C70_slots",
    "GB.C70_gap",
    "GB.C70_splitted_insert",
    "GB.C70_splitted_update",
    "GB.C70_splitted_update_leaf",
    "GB.C70_splitted_search"
   ],
   "note": "bounds on what is stored; the theorems on operations (C01-C22, C35, C67) keep trees valid"
  },
  {
   "property": "C71",
   "status": "proved",
   "theorems": [
    "GB.C71_arena",
    "GB.C71_wrap"
   ],
   "note": "justifies the arenas of the model; the dependency thunderdome is modelled from its published behaviour, its source is not in the repository"
  },
  {
   "property": "C72",
   "status": "proved",
   "theorems": [
    "GB.C72_programs",
    "GB.C72_programs_no_drain",
    "GB.C72_new",
    "GB.C72_bind",
    "GB.C72_mono",
    "GB.C72_walk",
    "GB.C72_steps",
    "GB.C72_insert_at",
    "GB.C72_pop_all"
   ],
   "note": "preconditions that the code does not document are listed in Props/C72.lean; each is needed, by the witnesses of C02, C06 (check on an empty tree), C13, C20, C23, C49, C62, C69"
  },
  {
   "property": "C73",
   "status": "proved",
   "theorems": [
    "GB.C73_contracts",
    "GB.C73_query",
    "GB.C73_insert",
    "GB.C73_delete",
    "GB.C73_history",
    "GB.C73_history_new",
    "GB.C73_linear",
    "GB.C73_choice"
   ],
   "note": ""
  },
  {
   "property": "C74",
   "status": "proved",
   "theorems": [
    "GB.C74_repairs",
    "GB.C74_check",
    "GB.C74_batch",
    "GB.C74_dead",
    "GB.C74_diff_root",
    "GB.C74_ord_diff",
    "GB.C74_rope_diff"
   ],
   "note": ""
  },
  {
   "property": "C75",
   "status": "proved",
   "theorems": [
    "GB.C75_finder",
    "GB.C75_unique",
    "GB.C75_empty",
    "GB.C75_scan",
    "GB.C75_len"
   ],
   "note": ""
  },
  {
   "property": "C76",
   "status": "proved",
   "theorems": [
    "GB.C76_next",
    "GB.C76_subsequence",
    "GB.C76_asked",
    "GB.C76_pure"
   ],
   "note": ""
  },
  {
   "property": "C77",
   "status": "proved",
   "theorems": [
    "GB.C77_debug",
    "GB.C77_leaf",
    "GB.C77_node",
    "GB.C77_lines",
    "GB.C77_lengths",
    "GB.C77_children"
   ],
   "note": ""
  },
  {
   "property": "C78",
   "status": "proved",
   "theorems": [
    "GB.C78_iter",
    "GB.C78_iter_range",
    "GB.C78_any_range",
    "GB.C78_too_high",
    "GB.C78_drain"
   ],
   "note": ""
  },
  {
   "property": "C79",
   "status": "proved",
   "theorems": [
    "GB.C79_least",
    "GB.C79_pieces",
    "GB.C79_count",
    "GB.C79_one"
   ],
   "note": ""
  },
  {
   "property": "C80",
   "status": "proved",
   "theorems": [
    "GB.C80_insert",
    "GB.C80_push",
    "GB.C80_prepend",
    "GB.C80_remove",
    "GB.C80_update",
    "GB.C80_height",
    "GB.C80_insert_log",
    "GB.C80_remove_log",
    "GB.C80_map_insert",
    "GB.C80_map_delete",
    "GB.C80_drain",
    "GB.C80_drain_pos",
    "GB.C80_drain_log",
    "GB.C80_update_by_search",
    "GB.C80_insert_many",
    "GB.C80_rope_insert",
    "GB.C80_rope_delete"
   ],
   "note": ""
  },
  {
   "property": "C81",
   "status": "proved",
   "theorems": [
    "GB.C81_random",
    "GB.C81_random_10K",
    "GB.C81_example",
    "GB.C81_example_any",
    "GB.C81_text",
    "GB.C81_text_panics_iff",
    "GB.C81_text_ascii",
    "GB.C81_text_chars_false",
    "GB.C81_ord"
   ],
   "note": ""
  },
  {
   "property": "C82",
   "status": "proved",
   "theorems": [
    "GB.C82_gap_basic",
    "GB.C82_gap_slice",
    "GB.C82_rope_basic",
    "GB.C82_delete_middle",
    "GB.C82_insert_repeatedly",
    "GB.C82_update",
    "GB.C82_clear",
    "GB.C82_clear_more_fails",
    "GB.C82_insert_many",
    "GB.C82_insert_many_empty",
    "GB.C82_repeat_insert",
    "GB.C82_ben",
    "GB.C82_test_delete",
    "GB.C82_depth_test",
    "GB.C82_range_basic"
   ],
   "note": ""
  },
  {
   "property": "C83",
   "status": "proved",
   "theorems": [
    "GB.C83_searches",
    "GB.C83_insert",
    "GB.C83_delete",
    "GB.C83_history",
    "GB.C83_nothing_invented",
    "GB.C83_nothing_lost",
    "GB.C83_count"
   ],
   "note": ""
  },
  {
   "property": "C84",
   "status": "proved",
   "theorems": [
    "GB.C84_push",
    "GB.C84_prepend",
    "GB.C84_insert",
    "GB.C84_remove",
    "GB.C84_same",
    "GB.C84_content",
    "GB.C84_history",
    "GB.C84_damaged",
    "GB.C84_prepend_empty"
   ],
   "note": ""
  },
  {
   "property": "C85",
   "status": "proved",
   "theorems": [
    "GB.C85_same_drain",
    "GB.C85_same_update_leaf",
    "GB.C85_same_update",
    "GB.C85_op",
    "GB.C85_drain",
    "GB.C85_update_leaf",
    "GB.C85_update",
    "GB.C85_iter",
    "GB.C85_damaged",
    "GB.C85_call",
    "GB.C85_history",
    "GB.C85_new"
   ],
   "note": ""
  },
  {
   "property": "C86",
   "status": "proved",
   "theorems": [
    "GB.C86_finder",
    "GB.C86_empty",
    "GB.C86_query",
    "GB.C86_insert",
    "GB.C86_remove",
    "GB.C86_walk",
    "GB.C86_len_picks",
    "GB.C86_len",
    "GB.C86_len_insert",
    "GB.C86_ord_picks",
    "GB.C86_ord_offset"
   ],
   "note": ""
  },
  {
   "property": "C87",
   "status": "proved",
   "theorems": [
    "GB.C87_same_search",
    "GB.C87_same_insert_many",
    "GB.C87_same_update_ranges",
    "GB.C87_search",
    "GB.C87_unreported",
    "GB.C87_any",
    "GB.C87_insert_many",
    "GB.C87_update_ranges"
   ],
   "note": ""
  },
  {
   "property": "C88",
   "status": "proved",
   "theorems": [
    "GB.C88_step",
    "GB.C88_history",
    "GB.C88_get_elem"
   ],
   "note": ""
  },
  {
   "property": "C89",
   "status": "proved",
   "theorems": [
    "GB.C89_repair",
    "GB.C89_paths",
    "GB.C89_restore",
    "GB.C89_root",
    "GB.C89_history",
    "GB.C89_rope",
    "GB.C89_range",
    "GB.C89_ord",
    "GB.C89_diff_fails",
    "GB.C89_none_fails"
   ],
   "note": ""
  },
  {
   "property": "C90",
   "status": "proved",
   "theorems": [
    "GB.C90_update",
    "GB.C90_no_diff",
    "GB.C90_range_map",
    "GB.C90_range_history",
    "GB.C90_ranges",
    "GB.C90_ranges_one",
    "GB.C90_ranges_numbers_false",
    "GB.C90_history"
   ],
   "note": ""
  },
  {
   "property": "C91",
   "status": "proved",
   "theorems": [
    "GB.C91_update",
    "GB.C91_update_iff",
    "GB.C91_leaf",
    "GB.C91_search",
    "GB.C91_search_any",
    "GB.C91_ranges",
    "GB.C91_ranges_lost",
    "GB.C91_forget"
   ],
   "note": ""
  },
  {
   "property": "C92",
   "status": "proved",
   "theorems": [
    "GB.C92_step",
    "GB.C92_history",
    "GB.C92_repair",
    "GB.C92_get_elem",
    "GB.C92_update_empty"
   ],
   "note": ""
  }
 ]
}