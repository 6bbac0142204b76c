import Verif.Props.C01
import Verif.Props.C02
import Verif.Props.C03
import Verif.Props.C04
import Verif.Props.C05
import Verif.Props.C06
import Verif.Props.C07
import Verif.Props.C08
import Verif.Props.C09
import Verif.Props.C10
import Verif.Props.C11
import Verif.Props.C12
import Verif.Props.C13
import Verif.Props.C14
import Verif.Props.C15
import Verif.Props.C16
import Verif.Props.C17
import Verif.Props.C18
import Verif.Props.C19
import Verif.Props.C20
import Verif.Props.C21
import Verif.Props.C22
import Verif.Props.C23
import Verif.Props.C24
import Verif.Props.C25
import Verif.Props.C26
import Verif.Props.C27
import Verif.Props.C28
import Verif.Props.C29
import Verif.Props.C30
import Verif.Props.C31
import Verif.Props.C32
import Verif.Props.C33
import Verif.Props.C34
import Verif.Props.C35
import Verif.Props.C36
import Verif.Props.C37
import Verif.Props.C38
import Verif.Props.C39
import Verif.Props.C40
import Verif.Props.C41
import Verif.Props.C42
import Verif.Props.C43
import Verif.Props.C44
import Verif.Props.C45
import Verif.Props.C46
import Verif.Props.C47
import Verif.Props.C48
import Verif.Props.C49
import Verif.Props.C50
import Verif.Props.C51
import Verif.Props.C52
import Verif.Props.C53
import Verif.Props.C54
import Verif.Props.C55
import Verif.Props.C56
import Verif.Props.C57
import Verif.Props.C58
import Verif.Props.C59
import Verif.Props.C60
import Verif.Props.C61
import Verif.Props.C62
import Verif.Props.C63
import Verif.Props.C64
import Verif.Props.C65
import Verif.Props.C66
import Verif.Props.C67
import Verif.Props.C68
import Verif.Props.C69
import Verif.Props.C70
import Verif.Props.C71
import Verif.Props.C72
import Verif.Props.C73
import Verif.Props.C74
import Verif.Props.C75
import Verif.Props.C76
import Verif.Props.C77
import Verif.Props.C78
import Verif.Props.C79
import Verif.Props.C80
import Verif.Props.C81
import Verif.Props.C82
import Verif.Props.C83
import Verif.Props.C84
import Verif.Props.C85
import Verif.Props.C86
import Verif.Props.C87
import Verif.Props.C88
import Verif.Props.C89
import Verif.Props.C90
import Verif.Props.C91
import Verif.Props.C92

/-!
# Axioms of the property theorems

Printed during the build; one line for every theorem of `MANIFEST.json`.
-/

#print axioms GB.C01_push
#print axioms GB.C01_push_content
#print axioms GB.C02_prepend_partial
#print axioms GB.C02_prepend_content_partial
#print axioms GB.C02_prepend_empty_partial
#print axioms GB.C02_empty_exact
#print axioms GB.C02_false_on_empty
#print axioms GB.C03_insert_by_path
#print axioms GB.C03_insert_content
#print axioms GB.C03_insert_local
#print axioms GB.C04_remove_leaf
#print axioms GB.C04_remove_any
#print axioms GB.C05_dead_inert
#print axioms GB.C05_stale_forever
#print axioms GB.C05_clear_alias
#print axioms GB.C06_check_means
#print axioms GB.C06_check_partial
#print axioms GB.C06_check_nonempty_partial
#print axioms GB.C06_check_iff
#print axioms GB.C06_emptied
#print axioms GB.C06_ord_false_always
#print axioms GB.C06_ord_false_when_emptied
#print axioms GB.C07_root_cache
#print axioms GB.C07_rope_length
#print axioms GB.C07_ord_min_max
#print axioms GB.C08_iter
#print axioms GB.C08_iter_size
#print axioms GB.C09_query_len
#print axioms GB.C09_finder
#print axioms GB.C09_finder_empty
#print axioms GB.C10_insert
#print axioms GB.C11_next_elem
#print axioms GB.C11_prev_elem
#print axioms GB.C11_inverse
#print axioms GB.C12_prefer_right
#print axioms GB.C12_prefer_left
#print axioms GB.C13_shift_partial
#print axioms GB.C13_end_partial
#print axioms GB.C13_false_at_node_end
#print axioms GB.C14_compare_pos
#print axioms GB.C15_visit
#print axioms GB.C15_rope_position
#print axioms GB.C16_iter_range
#print axioms GB.C16_iter_all
#print axioms GB.C16_unbounded_empty_panics
#print axioms GB.C17_ends
#print axioms GB.C18_drain
#print axioms GB.C18_drain_content
#print axioms GB.C18_drain_by_query
#print axioms GB.C18_panics_iff
#print axioms GB.C18_height
#print axioms GB.C19_empty_range_partial
#print axioms GB.C19_false_empty
#print axioms GB.C19_false_at_end
#print axioms GB.C20_update_leaf
#print axioms GB.C20_content
#print axioms GB.C20_alive
#print axioms GB.C20_ord_kept
#print axioms GB.C20_neutral_needed
#print axioms GB.C21_update
#print axioms GB.C21_update_content
#print axioms GB.C21_panics_iff
#print axioms GB.C21_empty_range
#print axioms GB.C21_rope_diffs
#print axioms GB.C21_ord_diffs
#print axioms GB.C22_search
#print axioms GB.C22_update_leaf_by_search
#print axioms GB.C22_unreported
#print axioms GB.C22_panics
#print axioms GB.C22_too_high
#print axioms GB.C22_empty
#print axioms GB.C22_content
#print axioms GB.C23_update_ranges_partial
#print axioms GB.C23_update_units_partial
#print axioms GB.C23_false_empty_range
#print axioms GB.C23_exact
#print axioms GB.C23_false_empty_range_panics
#print axioms GB.C23_rope_sub
#print axioms GB.C23_range_sub
#print axioms GB.C24_insert_many_partial
#print axioms GB.C24_rope_chunks
#print axioms GB.C24_exact
#print axioms GB.C24_nothing_lost
#print axioms GB.C24_none
#print axioms GB.C24_false_none
#print axioms GB.C24_false_none_empty
#print axioms GB.C24_false_order
#print axioms GB.C25_false
#print axioms GB.C25_false_contiguous
#print axioms GB.C25_exact
#print axioms GB.C25_content_perm
#print axioms GB.C25_permutation
#print axioms GB.C25_order_partial
#print axioms GB.C25_order_pairs_partial
#print axioms GB.C25_rope_chunks
#print axioms GB.C26_from_iter
#print axioms GB.C26_from_iter_elems
#print axioms GB.C26_iter
#print axioms GB.C26_rope
#print axioms GB.C26_remove_after_collect
#print axioms GB.C26_remove_after_collect_false
#print axioms GB.C27_clear
#print axioms GB.C27_clear_history
#print axioms GB.C28_reachable
#print axioms GB.C28_node_len
#print axioms GB.C28_emptied
#print axioms GB.C29_fill
#print axioms GB.C29_history
#print axioms GB.C29_depth
#print axioms GB.C30_ord_depth
#print axioms GB.C30_ord_log
#print axioms GB.C31_ord_insert
#print axioms GB.C31_ord_insert_iter
#print axioms GB.C32_ord_delete_present
#print axioms GB.C32_set_delete_present
#print axioms GB.C33_ord_delete_absent_partial
#print axioms GB.C33_false
#print axioms GB.C33_false_everywhere
#print axioms GB.C33_exact
#print axioms GB.C33_any_history
#print axioms GB.C34_ord_history
#print axioms GB.C34_ord_any_history
#print axioms GB.C34_set
#print axioms GB.C35_history_partial
#print axioms GB.C35_short_history_partial
#print axioms GB.C35_small_history
#print axioms GB.C35_any_history_partial
#print axioms GB.C35_delete_panics_iff
#print axioms GB.C35_read_iff
#print axioms GB.C35_nine_levels
#print axioms GB.C35_insert
#print axioms GB.C35_insert_out_of_range
#print axioms GB.C35_delete
#print axioms GB.C35_unbounded_false
#print axioms GB.C36_fresh_partial
#print axioms GB.C36_false_always
#print axioms GB.C36_false_panic
#print axioms GB.C36_false_content
#print axioms GB.C36_clear_partial
#print axioms GB.C37_len
#print axioms GB.C37_history
#print axioms GB.C37_len_any_height
#print axioms GB.C38_new_len
#print axioms GB.C38_insert_bytes
#print axioms GB.C38_push_bytes
#print axioms GB.C38_delete
#print axioms GB.C38_split
#print axioms GB.C38_slice
#print axioms GB.C38_slice_in_place
#print axioms GB.C38_merge
#print axioms GB.C38_try_insert
#print axioms GB.C38_push
#print axioms GB.C39_from_str
#print axioms GB.C40_update_with_split
#print axioms GB.C40_empty_range
#print axioms GB.C40_default_split
#print axioms GB.C41_any_filter
#print axioms GB.C41_sound_filter
#print axioms GB.C41_rope_filter
#print axioms GB.C42_any
#print axioms GB.C42_filtered
#print axioms GB.C42_all
#print axioms GB.C42_neutral
#print axioms GB.C42_root_cache_stale
#print axioms GB.C43_step
#print axioms GB.C43_history
#print axioms GB.C43_drain
#print axioms GB.C43_filter
#print axioms GB.C44_empty
#print axioms GB.C44_range
#print axioms GB.C44_range_len
#print axioms GB.C45_ord_lookup
#print axioms GB.C45_ord_lookup_present
#print axioms GB.C45_ord_lookup_absent
#print axioms GB.C46_too_high
#print axioms GB.C46_push_iter
#print axioms GB.C46_push_limit
#print axioms GB.C46_iter_panics
#print axioms GB.C47_insert
#print axioms GB.C47_plus
#print axioms GB.C47_history
#print axioms GB.C47_history_small
#print axioms GB.C47_history_any
#print axioms GB.C47_insert_nothing
#print axioms GB.C48_iter
#print axioms GB.C48_iter_partial
#print axioms GB.C48_iter_false
#print axioms GB.C48_drain
#print axioms GB.C48_drain_false
#print axioms GB.C49_history
#print axioms GB.C49_history_no_drain
#print axioms GB.C49_depth
#print axioms GB.C49_thin_left_edge
#print axioms GB.C49_drain_then_remove_false
#print axioms GB.C50_to_string
#print axioms GB.C50_history
#print axioms GB.C50_cut_panics
#print axioms GB.C51_get_elem_mut
#print axioms GB.C51_same_cache
#print axioms GB.C51_other_cache
#print axioms GB.C52_children
#print axioms GB.C52_space
#print axioms GB.C52_space_drained
#print axioms GB.C52_history
#print axioms GB.C52_history_drained
#print axioms GB.C53_slice
#print axioms GB.C53_split
#print axioms GB.C53_update_with_split
#print axioms GB.C53_gap_delete
#print axioms GB.C53_gap_slice
#print axioms GB.C53_rope_delete
#print axioms GB.C53_unmergeable
#print axioms GB.C53_unmergeable_split
#print axioms GB.C54_push
#print axioms GB.C54_prepend
#print axioms GB.C54_insert
#print axioms GB.C54_push_height
#print axioms GB.C54_depth
#print axioms GB.C55_rope_fuzz
#print axioms GB.C55_rope_target
#print axioms GB.C56_ord_target
#print axioms GB.C57_ord_test
#print axioms GB.C57_move_test
#print axioms GB.C57_compare_keys
#print axioms GB.C57_compare_test
#print axioms GB.C58_from_str
#print axioms GB.C58_from_iter
#print axioms GB.C58_drain
#print axioms GB.C59_get
#print axioms GB.C59_iter
#print axioms GB.C59_plus
#print axioms GB.C59_drain
#print axioms GB.C60_cache_bounds
#print axioms GB.C60_test_index
#print axioms GB.C60_test_index_history
#print axioms GB.C61_same_leaf_partial
#print axioms GB.C61_text_partial
#print axioms GB.C61_iter_range
#print axioms GB.C61_update
#print axioms GB.C61_drain
#print axioms GB.C61_range_map
#print axioms GB.C61_iter_range_false
#print axioms GB.C61_update_false
#print axioms GB.C61_drain_false
#print axioms GB.C61_range_map_false
#print axioms GB.C62_unused_partial
#print axioms GB.C62_leak
#print axioms GB.C62_leak_false
#print axioms GB.C63_check_partial
#print axioms GB.C63_read_partial
#print axioms GB.C63_twice_false
#print axioms GB.C63_foreign_false
#print axioms GB.C63_cycle_false
#print axioms GB.C64_history
#print axioms GB.C64_history_any
#print axioms GB.C65_insert
#print axioms GB.C65_insert_many
#print axioms GB.C65_update
#print axioms GB.C65_drain
#print axioms GB.C65_drain_beyond
#print axioms GB.C65_rope_insert
#print axioms GB.C65_range_insert
#print axioms GB.C65_range_drain
#print axioms GB.C66_insert
#print axioms GB.C66_insert_within
#print axioms GB.C66_remove
#print axioms GB.C66_drain
#print axioms GB.C66_update
#print axioms GB.C66_update_leaf
#print axioms GB.C66_by_search
#print axioms GB.C66_insert_many
#print axioms GB.C67_history
#print axioms GB.C67_history_any
#print axioms GB.C68_query
#print axioms GB.C68_descend
#print axioms GB.C68_climb
#print axioms GB.C68_caches
#print axioms GB.C68_split
#print axioms GB.C68_lack
#print axioms GB.C68_remove
#print axioms GB.C68_log
#print axioms GB.C68_search
#print axioms GB.C68_rope
#print axioms GB.C68_ord
#print axioms GB.C68_iter
#print axioms GB.C68_seal
#print axioms GB.C68_seal_checked
#print axioms GB.C69_update
#print axioms GB.C69_update_content
#print axioms GB.C69_update_panics_iff
#print axioms GB.C69_drain_partial
#print axioms GB.C69_drain_content_partial
#print axioms GB.C69_drain_panics_iff_partial
#print axioms GB.C69_drain_false
#print axioms GB.C70_caches
#print axioms GB.C70_lengths
#print axioms GB.C70_rope
#print axioms GB.C70_slots
#print axioms GB.C70_gap
#print axioms GB.C70_splitted_insert
#print axioms GB.C70_splitted_update
#print axioms GB.C70_splitted_update_leaf
#print axioms GB.C70_splitted_search
#print axioms GB.C71_arena
#print axioms GB.C71_wrap
#print axioms GB.C72_programs
#print axioms GB.C72_programs_no_drain
#print axioms GB.C72_new
#print axioms GB.C72_bind
#print axioms GB.C72_mono
#print axioms GB.C72_walk
#print axioms GB.C72_steps
#print axioms GB.C72_insert_at
#print axioms GB.C72_pop_all
#print axioms GB.C73_contracts
#print axioms GB.C73_query
#print axioms GB.C73_insert
#print axioms GB.C73_delete
#print axioms GB.C73_history
#print axioms GB.C73_history_new
#print axioms GB.C73_linear
#print axioms GB.C73_choice
#print axioms GB.C74_repairs
#print axioms GB.C74_check
#print axioms GB.C74_batch
#print axioms GB.C74_dead
#print axioms GB.C74_diff_root
#print axioms GB.C74_ord_diff
#print axioms GB.C74_rope_diff
#print axioms GB.C75_finder
#print axioms GB.C75_unique
#print axioms GB.C75_empty
#print axioms GB.C75_scan
#print axioms GB.C75_len
#print axioms GB.C76_next
#print axioms GB.C76_subsequence
#print axioms GB.C76_asked
#print axioms GB.C76_pure
#print axioms GB.C77_debug
#print axioms GB.C77_leaf
#print axioms GB.C77_node
#print axioms GB.C77_lines
#print axioms GB.C77_lengths
#print axioms GB.C77_children
#print axioms GB.C78_iter
#print axioms GB.C78_iter_range
#print axioms GB.C78_any_range
#print axioms GB.C78_too_high
#print axioms GB.C78_drain
#print axioms GB.C79_least
#print axioms GB.C79_pieces
#print axioms GB.C79_count
#print axioms GB.C79_one
#print axioms GB.C80_insert
#print axioms GB.C80_push
#print axioms GB.C80_prepend
#print axioms GB.C80_remove
#print axioms GB.C80_update
#print axioms GB.C80_height
#print axioms GB.C80_insert_log
#print axioms GB.C80_remove_log
#print axioms GB.C80_map_insert
#print axioms GB.C80_map_delete
#print axioms GB.C80_drain
#print axioms GB.C80_drain_pos
#print axioms GB.C80_drain_log
#print axioms GB.C80_update_by_search
#print axioms GB.C80_insert_many
#print axioms GB.C80_rope_insert
#print axioms GB.C80_rope_delete
#print axioms GB.C81_random
#print axioms GB.C81_random_10K
#print axioms GB.C81_example
#print axioms GB.C81_example_any
#print axioms GB.C81_text
#print axioms GB.C81_text_panics_iff
#print axioms GB.C81_text_ascii
#print axioms GB.C81_text_chars_false
#print axioms GB.C81_ord
#print axioms GB.C82_gap_basic
#print axioms GB.C82_gap_slice
#print axioms GB.C82_rope_basic
#print axioms GB.C82_delete_middle
#print axioms GB.C82_insert_repeatedly
#print axioms GB.C82_update
#print axioms GB.C82_clear
#print axioms GB.C82_clear_more_fails
#print axioms GB.C82_insert_many
#print axioms GB.C82_insert_many_empty
#print axioms GB.C82_repeat_insert
#print axioms GB.C82_ben
#print axioms GB.C82_test_delete
#print axioms GB.C82_depth_test
#print axioms GB.C82_range_basic
#print axioms GB.C83_searches
#print axioms GB.C83_insert
#print axioms GB.C83_delete
#print axioms GB.C83_history
#print axioms GB.C83_nothing_invented
#print axioms GB.C83_nothing_lost
#print axioms GB.C83_count
#print axioms GB.C84_push
#print axioms GB.C84_prepend
#print axioms GB.C84_insert
#print axioms GB.C84_remove
#print axioms GB.C84_same
#print axioms GB.C84_content
#print axioms GB.C84_history
#print axioms GB.C84_damaged
#print axioms GB.C84_prepend_empty
#print axioms GB.C85_same_drain
#print axioms GB.C85_same_update_leaf
#print axioms GB.C85_same_update
#print axioms GB.C85_op
#print axioms GB.C85_drain
#print axioms GB.C85_update_leaf
#print axioms GB.C85_update
#print axioms GB.C85_iter
#print axioms GB.C85_damaged
#print axioms GB.C85_call
#print axioms GB.C85_history
#print axioms GB.C85_new
#print axioms GB.C86_finder
#print axioms GB.C86_empty
#print axioms GB.C86_query
#print axioms GB.C86_insert
#print axioms GB.C86_remove
#print axioms GB.C86_walk
#print axioms GB.C86_len_picks
#print axioms GB.C86_len
#print axioms GB.C86_len_insert
#print axioms GB.C86_ord_picks
#print axioms GB.C86_ord_offset
#print axioms GB.C87_same_search
#print axioms GB.C87_same_insert_many
#print axioms GB.C87_same_update_ranges
#print axioms GB.C87_search
#print axioms GB.C87_unreported
#print axioms GB.C87_any
#print axioms GB.C87_insert_many
#print axioms GB.C87_update_ranges
#print axioms GB.C88_step
#print axioms GB.C88_history
#print axioms GB.C88_get_elem
#print axioms GB.C89_repair
#print axioms GB.C89_paths
#print axioms GB.C89_restore
#print axioms GB.C89_root
#print axioms GB.C89_history
#print axioms GB.C89_rope
#print axioms GB.C89_range
#print axioms GB.C89_ord
#print axioms GB.C89_diff_fails
#print axioms GB.C89_none_fails
#print axioms GB.C90_update
#print axioms GB.C90_no_diff
#print axioms GB.C90_range_map
#print axioms GB.C90_range_history
#print axioms GB.C90_ranges
#print axioms GB.C90_ranges_one
#print axioms GB.C90_ranges_numbers_false
#print axioms GB.C90_history
#print axioms GB.C91_update
#print axioms GB.C91_update_iff
#print axioms GB.C91_leaf
#print axioms GB.C91_search
#print axioms GB.C91_search_any
#print axioms GB.C91_ranges
#print axioms GB.C91_ranges_lost
#print axioms GB.C91_forget
#print axioms GB.C92_step
#print axioms GB.C92_history
#print axioms GB.C92_repair
#print axioms GB.C92_get_elem
#print axioms GB.C92_update_empty
