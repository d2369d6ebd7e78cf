# Axioms of the theorems named in MANIFEST.json

Generated by tools/gen_axioms.py from Lean's `#print axioms`.

## none (4)

* `Ripsrc.C51_no_heads`
* `Ripsrc.C52_key_ignores_other_refs`
* `Ripsrc.C63_empty_tree`
* `Ripsrc.C63_git_fails`

## propext (34)

* `Ripsrc.C01_no_cr`
* `Ripsrc.C03_equal_offsets_matter`
* `Ripsrc.C09_omitted_count_misapplied`
* `Ripsrc.C09_zero_context_misapplied`
* `Ripsrc.C20_order_is_false`
* `Ripsrc.C23_ambiguous`
* `Ripsrc.C23_branch_id`
* `Ripsrc.C23_branch_id_none`
* `Ripsrc.C30_type_change_depends_on_order`
* `Ripsrc.C34_empty_log_not_checked`
* `Ripsrc.C40_ambiguous`
* `Ripsrc.C41_second_path_loses_author`
* `Ripsrc.C43_incremental_loses_authors`
* `Ripsrc.C49_bare_repository_is_searched`
* `Ripsrc.C51_not_lowest`
* `Ripsrc.C52_concurrent_writers_corrupt`
* `Ripsrc.C52_concurrent_writers_mix`
* `Ripsrc.C52_heads_told_apart`
* `Ripsrc.C52_ignored_close_error`
* `Ripsrc.C52_key_ambiguous`
* `Ripsrc.C52_other_heads_ignored`
* `Ripsrc.C53_rename_example`
* `Ripsrc.C60_unreadable`
* `Ripsrc.C61_all_branches_ignored`
* `Ripsrc.C64_not_compared`
* `Ripsrc.C64_success_anyway`
* `Ripsrc.C68_complete_lines`
* `Ripsrc.C68_generated`
* `Ripsrc.C68_last_line`
* `Ripsrc.C71_glued`
* `Ripsrc.C71_injection`
* `Ripsrc.C73_panics`
* `Ripsrc.C76_decorated_parent`
* `Ripsrc.C87_preparation_closed`

## propext, Quot.sound (79)

* `Ripsrc.C03_hunk_order`
* `Ripsrc.C07_too_long`
* `Ripsrc.C08_hunk_header`
* `Ripsrc.C08_plain_header`
* `Ripsrc.C11_too_long`
* `Ripsrc.C12_too_long`
* `Ripsrc.C13_children_inverse`
* `Ripsrc.C17_order_independent`
* `Ripsrc.C24_blame_commit`
* `Ripsrc.C24_one_result_per_commit`
* `Ripsrc.C25_binary_without_lines`
* `Ripsrc.C26_known_commits`
* `Ripsrc.C27_marker_collision`
* `Ripsrc.C29_not_across_resumes`
* `Ripsrc.C29_unloader_fifo`
* `Ripsrc.C32_child_of_lost_commit_fails`
* `Ripsrc.C34_not_strict`
* `Ripsrc.C34_strict_match`
* `Ripsrc.C34_strict_mismatch`
* `Ripsrc.C34_unreadable_file`
* `Ripsrc.C34_version_written`
* `Ripsrc.C37_read_iff`
* `Ripsrc.C37_read_sound`
* `Ripsrc.C38_numbers`
* `Ripsrc.C38_short_raw_line`
* `Ripsrc.C39_long_line_ends_log`
* `Ripsrc.C41_blame_parser`
* `Ripsrc.C41_blame_result`
* `Ripsrc.C41_nothing_dropped`
* `Ripsrc.C42_rename_without_blame_panics`
* `Ripsrc.C45_license`
* `Ripsrc.C46_answer`
* `Ripsrc.C46_history_independent`
* `Ripsrc.C47_no_default_name`
* `Ripsrc.C48_slowest_commits`
* `Ripsrc.C48_total`
* `Ripsrc.C52_cache_file_complete`
* `Ripsrc.C52_complete_output`
* `Ripsrc.C52_key_unambiguous`
* `Ripsrc.C52_own_output`
* `Ripsrc.C54_apply`
* `Ripsrc.C54_history`
* `Ripsrc.C54_merge`
* `Ripsrc.C54_same_failures`
* `Ripsrc.C58_listing_errors`
* `Ripsrc.C60_code_line`
* `Ripsrc.C61_full`
* `Ripsrc.C61_same_commits`
* `Ripsrc.C62_result`
* `Ripsrc.C62_terminates`
* `Ripsrc.C64_success_iff`
* `Ripsrc.C65_missing_parent`
* `Ripsrc.C68_gaps`
* `Ripsrc.C68_ignored`
* `Ripsrc.C68_not_anchored`
* `Ripsrc.C70_filename_mask`
* `Ripsrc.C70_tab_split`
* `Ripsrc.C71_bad_args`
* `Ripsrc.C71_record`
* `Ripsrc.C72_panic`
* `Ripsrc.C72_parser`
* `Ripsrc.C72_parser_fails`
* `Ripsrc.C72_returns`
* `Ripsrc.C73_large_alphabet`
* `Ripsrc.C73_string`
* `Ripsrc.C74_debug`
* `Ripsrc.C74_string`
* `Ripsrc.C75_removed`
* `Ripsrc.C76_coloured`
* `Ripsrc.C76_merge_taken_over`
* `Ripsrc.C84_mode_change_asks`
* `Ripsrc.C85_every_call_leaks`
* `Ripsrc.C85_result`
* `Ripsrc.C85_terminates`
* `Ripsrc.C88_last_reader`
* `Ripsrc.C88_one_after_the_other`
* `Ripsrc.C89_first_graph`
* `Ripsrc.C90_merge_not_noticed`
* `Ripsrc.C90_version`

## propext, Classical.choice, Quot.sound (295)

* `Ripsrc.C01_apply_reproduces_new_file`
* `Ripsrc.C02_apply_attribution`
* `Ripsrc.C04_apply_rejects`
* `Ripsrc.C05_merge_blame`
* `Ripsrc.C06_content_not_compared`
* `Ripsrc.C06_merge_rejects`
* `Ripsrc.C07_combined`
* `Ripsrc.C07_parse_inverts_render`
* `Ripsrc.C07_parse_then_apply`
* `Ripsrc.C09_everywhere`
* `Ripsrc.C09_insertion`
* `Ripsrc.C09_omitted_count`
* `Ripsrc.C10_decl_same_name`
* `Ripsrc.C10_decl_spaced_rename`
* `Ripsrc.C10_decl_without_spaces`
* `Ripsrc.C10_wrong_pair`
* `Ripsrc.C11_blank_context_line_panics`
* `Ripsrc.C11_changes_are_diffs`
* `Ripsrc.C11_log_parser`
* `Ripsrc.C11_then_parse`
* `Ripsrc.C11_trailing_blank_duplicates`
* `Ripsrc.C12_graph_reader`
* `Ripsrc.C13_order_independent`
* `Ripsrc.C14_default_branch`
* `Ripsrc.C15_unmerged_commits`
* `Ripsrc.C16_merged_commits`
* `Ripsrc.C17_branch_points`
* `Ripsrc.C17_unmerged`
* `Ripsrc.C18_behind_exact`
* `Ripsrc.C18_behind_exact_iff`
* `Ripsrc.C18_behind_exact_linear`
* `Ripsrc.C18_behind_lower`
* `Ripsrc.C18_exact_is_false`
* `Ripsrc.C18_no_branch_point`
* `Ripsrc.C19_head_is_default`
* `Ripsrc.C19_merge_commit`
* `Ripsrc.C20_before_a_child`
* `Ripsrc.C20_order_tree`
* `Ripsrc.C21_record`
* `Ripsrc.C21_succeeds`
* `Ripsrc.C21_unknown_pr`
* `Ripsrc.C22_error`
* `Ripsrc.C22_worker_pool`
* `Ripsrc.C24_history`
* `Ripsrc.C25_blame_content`
* `Ripsrc.C25_result_content`
* `Ripsrc.C26_blame_attribution`
* `Ripsrc.C27_reported_files`
* `Ripsrc.C28_parents_retained`
* `Ripsrc.C29_retained_bound`
* `Ripsrc.C30_map_order`
* `Ripsrc.C31_round_trip`
* `Ripsrc.C32_collision_corrupts`
* `Ripsrc.C32_empty_commit_lost`
* `Ripsrc.C33_checkpoint_restores`
* `Ripsrc.C33_incremental_equals_full`
* `Ripsrc.C33_on_disk`
* `Ripsrc.C33_parents_found`
* `Ripsrc.C33_recent_kept`
* `Ripsrc.C33_recent_parents_found`
* `Ripsrc.C35_completed`
* `Ripsrc.C35_crash`
* `Ripsrc.C35_history`
* `Ripsrc.C35_window`
* `Ripsrc.C36_blames`
* `Ripsrc.C36_line_data`
* `Ripsrc.C36_lines`
* `Ripsrc.C36_rows`
* `Ripsrc.C37_blames`
* `Ripsrc.C37_line_data`
* `Ripsrc.C37_lines`
* `Ripsrc.C37_rows`
* `Ripsrc.C37_truncation_undetected`
* `Ripsrc.C38_added_symlink_reported_modified`
* `Ripsrc.C38_bad_date`
* `Ripsrc.C38_combined_first`
* `Ripsrc.C38_commit_parser`
* `Ripsrc.C38_leading_space`
* `Ripsrc.C38_no_commit`
* `Ripsrc.C39_commits_lost`
* `Ripsrc.C40_brace_in_old_name`
* `Ripsrc.C40_brace_rename`
* `Ripsrc.C40_no_rename`
* `Ripsrc.C40_plain_rename`
* `Ripsrc.C40_renamed_iff`
* `Ripsrc.C42_code_records`
* `Ripsrc.C42_one_line_per_blame_line`
* `Ripsrc.C42_panics_only`
* `Ripsrc.C43_authors`
* `Ripsrc.C44_line_classes`
* `Ripsrc.C45_first_failing_check`
* `Ripsrc.C45_license_name_not_anchored`
* `Ripsrc.C45_license_reported`
* `Ripsrc.C45_license_tie_nondeterministic`
* `Ripsrc.C45_panics_only_for_license_db`
* `Ripsrc.C45_processed_iff`
* `Ripsrc.C47_at_name_panics`
* `Ripsrc.C47_branch_listing`
* `Ripsrc.C47_default_branch`
* `Ripsrc.C47_extra_lines`
* `Ripsrc.C47_short_origin_panics`
* `Ripsrc.C49_discovery`
* `Ripsrc.C49_exactly_the_repositories`
* `Ripsrc.C50_pipeline`
* `Ripsrc.C51_common_ancestor`
* `Ripsrc.C51_panics_iff`
* `Ripsrc.C51_terminates`
* `Ripsrc.C52_shared`
* `Ripsrc.C53_quoted_path_lost`
* `Ripsrc.C53_quoted_with_space`
* `Ripsrc.C53_rename_to_quoted`
* `Ripsrc.C55_checkpoint_error`
* `Ripsrc.C55_error_returned`
* `Ripsrc.C55_panic`
* `Ripsrc.C55_preparation_error`
* `Ripsrc.C55_returns_iff`
* `Ripsrc.C55_unknown_commit`
* `Ripsrc.C56_broken_commit_line`
* `Ripsrc.C56_foreign_line`
* `Ripsrc.C56_truncated_checkpoint`
* `Ripsrc.C57_code_of_a_history`
* `Ripsrc.C57_from_git_output`
* `Ripsrc.C58_branches_of_repo`
* `Ripsrc.C58_errors`
* `Ripsrc.C58_git_log_fails`
* `Ripsrc.C59_new_commit_crashes`
* `Ripsrc.C59_retry_crashes`
* `Ripsrc.C59_same_result`
* `Ripsrc.C59_stale_graph_crashes`
* `Ripsrc.C60_all_processed`
* `Ripsrc.C60_exit_status`
* `Ripsrc.C60_head_commit`
* `Ripsrc.C60_panic`
* `Ripsrc.C60_single_failure`
* `Ripsrc.C60_summary`
* `Ripsrc.C61_exclusive`
* `Ripsrc.C61_graph_knows`
* `Ripsrc.C61_inclusive`
* `Ripsrc.C61_incremental`
* `Ripsrc.C61_linear`
* `Ripsrc.C61_merge_start_includes_older`
* `Ripsrc.C61_other_branch_missed`
* `Ripsrc.C61_overlap_one`
* `Ripsrc.C61_refused`
* `Ripsrc.C61_start`
* `Ripsrc.C61_start_not_reached`
* `Ripsrc.C62_can_end`
* `Ripsrc.C62_complete`
* `Ripsrc.C62_error`
* `Ripsrc.C62_git_fails`
* `Ripsrc.C62_graph`
* `Ripsrc.C62_long_line_crashes`
* `Ripsrc.C62_long_line_crashes_graph`
* `Ripsrc.C62_metadata`
* `Ripsrc.C62_unread_output_crashes`
* `Ripsrc.C63_files`
* `Ripsrc.C63_leading_space`
* `Ripsrc.C64_file`
* `Ripsrc.C64_history`
* `Ripsrc.C65_missing_file`
* `Ripsrc.C65_missing_file_merge`
* `Ripsrc.C65_source`
* `Ripsrc.C65_source_merge`
* `Ripsrc.C66_blames`
* `Ripsrc.C66_cut_in_unknown`
* `Ripsrc.C66_line_data`
* `Ripsrc.C66_lines`
* `Ripsrc.C66_rows`
* `Ripsrc.C66_unknown_entries`
* `Ripsrc.C67_blames`
* `Ripsrc.C67_data`
* `Ripsrc.C67_line_data`
* `Ripsrc.C67_lines`
* `Ripsrc.C67_rows`
* `Ripsrc.C67_stale_elements`
* `Ripsrc.C68_never_processed`
* `Ripsrc.C68_reason`
* `Ripsrc.C69_generator`
* `Ripsrc.C69_no_patterns`
* `Ripsrc.C70_generated`
* `Ripsrc.C70_license_name`
* `Ripsrc.C70_rename`
* `Ripsrc.C71_complete`
* `Ripsrc.C71_ends`
* `Ripsrc.C71_lines`
* `Ripsrc.C71_no_deadlock`
* `Ripsrc.C73_bias`
* `Ripsrc.C74_count`
* `Ripsrc.C74_eq`
* `Ripsrc.C74_eq_ignores_binary`
* `Ripsrc.C74_path_or_prev`
* `Ripsrc.C75_growth`
* `Ripsrc.C75_kept`
* `Ripsrc.C75_only_ancestors`
* `Ripsrc.C76_copy`
* `Ripsrc.C76_copy_attribution`
* `Ripsrc.C76_copy_space`
* `Ripsrc.C76_decorated_log`
* `Ripsrc.C76_dense_combined`
* `Ripsrc.C76_merge_fails`
* `Ripsrc.C76_prefix_panics`
* `Ripsrc.C76_prefix_space`
* `Ripsrc.C76_regular_unaffected`
* `Ripsrc.C76_short_names`
* `Ripsrc.C76_show_root`
* `Ripsrc.C76_signature`
* `Ripsrc.C76_submodule`
* `Ripsrc.C76_suppress_blank_empty`
* `Ripsrc.C76_suppress_blank_empty_end`
* `Ripsrc.C77_author_date`
* `Ripsrc.C77_branch_date`
* `Ripsrc.C77_branch_panics`
* `Ripsrc.C77_branches`
* `Ripsrc.C77_calendar`
* `Ripsrc.C77_commit_fails`
* `Ripsrc.C77_commits`
* `Ripsrc.C77_late_year`
* `Ripsrc.C77_no_at`
* `Ripsrc.C77_only_author_dates`
* `Ripsrc.C77_only_branch_dates`
* `Ripsrc.C77_zone_rejected`
* `Ripsrc.C78_after_crashes`
* `Ripsrc.C78_from_git_output`
* `Ripsrc.C78_incremental_code`
* `Ripsrc.C79_branches`
* `Ripsrc.C79_branches_visible`
* `Ripsrc.C79_code`
* `Ripsrc.C79_code_visible`
* `Ripsrc.C79_getAll`
* `Ripsrc.C79_memory_log_race`
* `Ripsrc.C80_abandoned`
* `Ripsrc.C80_drained`
* `Ripsrc.C80_panic`
* `Ripsrc.C80_streamed`
* `Ripsrc.C81_alone_succeeds`
* `Ripsrc.C81_every_mixture`
* `Ripsrc.C81_read_during_write`
* `Ripsrc.C81_reader_for_new_commit`
* `Ripsrc.C81_reader_for_old_commit`
* `Ripsrc.C81_two_writers`
* `Ripsrc.C81_wrong_blame`
* `Ripsrc.C82_only_ancestors_matter`
* `Ripsrc.C82_same_records`
* `Ripsrc.C83_binary_rename`
* `Ripsrc.C83_merge_rename_fails`
* `Ripsrc.C83_no_records`
* `Ripsrc.C83_rename_of_quoted_fails`
* `Ripsrc.C83_rename_source`
* `Ripsrc.C83_rename_with_change_fails`
* `Ripsrc.C84_blame_fails`
* `Ripsrc.C84_crash`
* `Ripsrc.C84_mode_change_is_text`
* `Ripsrc.C85_can_end`
* `Ripsrc.C85_leak`
* `Ripsrc.C86_branches_abandoned`
* `Ripsrc.C86_branches_drained`
* `Ripsrc.C86_branches_stream`
* `Ripsrc.C86_code_abandoned`
* `Ripsrc.C86_code_drained`
* `Ripsrc.C86_code_stream`
* `Ripsrc.C87_by_commit`
* `Ripsrc.C87_by_commit_calm`
* `Ripsrc.C87_by_commit_dies`
* `Ripsrc.C87_closed_early`
* `Ripsrc.C87_code`
* `Ripsrc.C87_code_calm`
* `Ripsrc.C87_preparation`
* `Ripsrc.C87_records_missing`
* `Ripsrc.C87_slice`
* `Ripsrc.C88_after_first`
* `Ripsrc.C88_overlap_crashes`
* `Ripsrc.C88_overlap_wrong_record`
* `Ripsrc.C89_crash`
* `Ripsrc.C89_damaged_checkpoint`
* `Ripsrc.C89_from_empty`
* `Ripsrc.C89_later_run_fails`
* `Ripsrc.C89_merge_repeated`
* `Ripsrc.C89_mode_change`
* `Ripsrc.C89_needs_old`
* `Ripsrc.C89_second_call`
* `Ripsrc.C90_linear`
* `Ripsrc.C90_mode_not_noticed`
* `Ripsrc.C90_not_noticed`
* `Ripsrc.C90_on_disk`
* `Ripsrc.C90_part`
* `Ripsrc.C91_behind_grows`
* `Ripsrc.C91_commits_shrink`
* `Ripsrc.C91_default_record`
* `Ripsrc.C91_fast_forward`
* `Ripsrc.C91_merge`
* `Ripsrc.C91_merge_commit_changes`
* `Ripsrc.C91_merge_commit_smallest`
* `Ripsrc.C91_same_default`
* `Ripsrc.C91_stays_merged`
* `Ripsrc.C91_work_kept`
