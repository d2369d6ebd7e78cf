{
 "claims": [
  {
   "property": "C01",
   "status": "proved",
   "theorems": [
    "Ripsrc.C01_apply_reproduces_new_file",
    "Ripsrc.C01_no_cr"
   ],
   "note": ""
  },
  {
   "property": "C02",
   "status": "proved",
   "theorems": [
    "Ripsrc.C02_apply_attribution"
   ],
   "note": ""
  },
  {
   "property": "C03",
   "status": "proved",
   "theorems": [
    "Ripsrc.C03_hunk_order",
    "Ripsrc.C03_equal_offsets_matter"
   ],
   "note": ""
  },
  {
   "property": "C04",
   "status": "proved",
   "theorems": [
    "Ripsrc.C04_apply_rejects"
   ],
   "note": ""
  },
  {
   "property": "C05",
   "status": "proved",
   "theorems": [
    "Ripsrc.C05_merge_blame"
   ],
   "note": ""
  },
  {
   "property": "C06",
   "status": "proved",
   "theorems": [
    "Ripsrc.C06_merge_rejects",
    "Ripsrc.C06_content_not_compared"
   ],
   "note": ""
  },
  {
   "property": "C07",
   "status": "proved",
   "theorems": [
    "Ripsrc.C07_parse_inverts_render",
    "Ripsrc.C07_parse_then_apply",
    "Ripsrc.C07_too_long",
    "Ripsrc.C07_combined"
   ],
   "note": ""
  },
  {
   "property": "C08",
   "status": "proved",
   "theorems": [
    "Ripsrc.C08_hunk_header",
    "Ripsrc.C08_plain_header"
   ],
   "note": ""
  },
  {
   "property": "C09",
   "status": "proved",
   "theorems": [
    "Ripsrc.C09_insertion",
    "Ripsrc.C09_omitted_count",
    "Ripsrc.C09_everywhere",
    "Ripsrc.C09_zero_context_misapplied",
    "Ripsrc.C09_omitted_count_misapplied"
   ],
   "note": "the positive statement is C01"
  },
  {
   "property": "C10",
   "status": "proved",
   "theorems": [
    "Ripsrc.C10_decl_without_spaces",
    "Ripsrc.C10_decl_same_name",
    "Ripsrc.C10_decl_spaced_rename",
    "Ripsrc.C10_wrong_pair"
   ],
   "note": ""
  },
  {
   "property": "C11",
   "status": "proved",
   "theorems": [
    "Ripsrc.C11_log_parser",
    "Ripsrc.C11_too_long",
    "Ripsrc.C11_then_parse",
    "Ripsrc.C11_changes_are_diffs",
    "Ripsrc.C11_blank_context_line_panics",
    "Ripsrc.C11_trailing_blank_duplicates"
   ],
   "note": ""
  },
  {
   "property": "C12",
   "status": "proved",
   "theorems": [
    "Ripsrc.C12_graph_reader",
    "Ripsrc.C12_too_long"
   ],
   "note": ""
  },
  {
   "property": "C13",
   "status": "proved",
   "theorems": [
    "Ripsrc.C13_children_inverse",
    "Ripsrc.C13_order_independent"
   ],
   "note": ""
  },
  {
   "property": "C14",
   "status": "proved",
   "theorems": [
    "Ripsrc.C14_default_branch"
   ],
   "note": ""
  },
  {
   "property": "C15",
   "status": "proved",
   "theorems": [
    "Ripsrc.C15_unmerged_commits"
   ],
   "note": ""
  },
  {
   "property": "C16",
   "status": "proved",
   "theorems": [
    "Ripsrc.C16_merged_commits"
   ],
   "note": ""
  },
  {
   "property": "C17",
   "status": "proved",
   "theorems": [
    "Ripsrc.C17_branch_points",
    "Ripsrc.C17_unmerged",
    "Ripsrc.C17_order_independent"
   ],
   "note": ""
  },
  {
   "property": "C18",
   "status": "proved",
   "theorems": [
    "Ripsrc.C18_behind_exact",
    "Ripsrc.C18_behind_exact_iff",
    "Ripsrc.C18_behind_lower",
    "Ripsrc.C18_behind_exact_linear",
    "Ripsrc.C18_exact_is_false",
    "Ripsrc.C18_no_branch_point"
   ],
   "note": "the equality promised by the doc comment is characterised exactly (iff) and shown false in general"
  },
  {
   "property": "C19",
   "status": "proved",
   "theorems": [
    "Ripsrc.C19_merge_commit",
    "Ripsrc.C19_head_is_default"
   ],
   "note": ""
  },
  {
   "property": "C20",
   "status": "proved",
   "theorems": [
    "Ripsrc.C20_before_a_child",
    "Ripsrc.C20_order_tree",
    "Ripsrc.C20_order_is_false"
   ],
   "note": "the documented order is false of the code in general; counter-example proved"
  },
  {
   "property": "C21",
   "status": "proved",
   "theorems": [
    "Ripsrc.C21_record",
    "Ripsrc.C21_unknown_pr",
    "Ripsrc.C21_succeeds"
   ],
   "note": ""
  },
  {
   "property": "C22",
   "status": "proved",
   "theorems": [
    "Ripsrc.C22_worker_pool",
    "Ripsrc.C22_error"
   ],
   "note": "all options; C22_error is the run in which loading the branches or the default branch fails; lastErr is not modelled (processBranch never returns an error, it panics); goroutine semantics as in C50"
  },
  {
   "property": "C23",
   "status": "proved",
   "theorems": [
    "Ripsrc.C23_branch_id",
    "Ripsrc.C23_branch_id_none",
    "Ripsrc.C23_ambiguous"
   ],
   "note": ""
  },
  {
   "property": "C24",
   "status": "proved",
   "theorems": [
    "Ripsrc.C24_one_result_per_commit",
    "Ripsrc.C24_history",
    "Ripsrc.C24_blame_commit"
   ],
   "note": "excluded is a merge that deletes a file x and has a file @@@del@@@x (C27_marker_collision proves that such a merge is reported wrongly); git blame is assumed to answer correctly, only for the files for which it is asked (Spec.HCommit.AsksBlame, C84)"
  },
  {
   "property": "C25",
   "status": "proved",
   "theorems": [
    "Ripsrc.C25_blame_content",
    "Ripsrc.C25_result_content",
    "Ripsrc.C25_binary_without_lines"
   ],
   "note": "excluded is a merge that deletes a file x and has a file @@@del@@@x (C27_marker_collision proves that such a merge is reported wrongly); git blame is assumed to answer correctly, only for the files for which it is asked (Spec.HCommit.AsksBlame, C84)"
  },
  {
   "property": "C26",
   "status": "proved",
   "theorems": [
    "Ripsrc.C26_blame_attribution",
    "Ripsrc.C26_known_commits"
   ],
   "note": "excluded is a merge that deletes a file x and has a file @@@del@@@x (C27_marker_collision proves that such a merge is reported wrongly); git blame is assumed to answer correctly, only for the files for which it is asked (Spec.HCommit.AsksBlame, C84)"
  },
  {
   "property": "C27",
   "status": "proved",
   "theorems": [
    "Ripsrc.C27_reported_files",
    "Ripsrc.C27_marker_collision"
   ],
   "note": "excluded is a merge that deletes a file x and has a file @@@del@@@x (C27_marker_collision proves that such a merge is reported wrongly); git blame is assumed to answer correctly, only for the files for which it is asked (Spec.HCommit.AsksBlame, C84)"
  },
  {
   "property": "C28",
   "status": "proved",
   "theorems": [
    "Ripsrc.C28_parents_retained"
   ],
   "note": "excluded is a merge that deletes a file x and has a file @@@del@@@x (C27_marker_collision proves that such a merge is reported wrongly); git blame is assumed to answer correctly, only for the files for which it is asked (Spec.HCommit.AsksBlame, C84)"
  },
  {
   "property": "C29",
   "status": "proved",
   "theorems": [
    "Ripsrc.C29_retained_bound",
    "Ripsrc.C29_unloader_fifo",
    "Ripsrc.C29_not_across_resumes"
   ],
   "note": "excluded is a merge that deletes a file x and has a file @@@del@@@x (C27_marker_collision proves that such a merge is reported wrongly); git blame is assumed to answer correctly, only for the files for which it is asked (Spec.HCommit.AsksBlame, C84)"
  },
  {
   "property": "C30",
   "status": "proved",
   "theorems": [
    "Ripsrc.C30_map_order",
    "Ripsrc.C30_type_change_depends_on_order"
   ],
   "note": "excluded is a merge that deletes a file x and has a file @@@del@@@x (C27_marker_collision proves that such a merge is reported wrongly); git blame is assumed to answer correctly, only for the files for which it is asked (Spec.HCommit.AsksBlame, C84)"
  },
  {
   "property": "C31",
   "status": "proved",
   "theorems": [
    "Ripsrc.C31_round_trip"
   ],
   "note": "MessagePack primitives and gzip are modelled from their documentation (not in /repo)"
  },
  {
   "property": "C32",
   "status": "proved",
   "theorems": [
    "Ripsrc.C32_empty_commit_lost",
    "Ripsrc.C32_child_of_lost_commit_fails",
    "Ripsrc.C32_collision_corrupts"
   ],
   "note": ""
  },
  {
   "property": "C33",
   "status": "proved",
   "theorems": [
    "Ripsrc.C33_incremental_equals_full",
    "Ripsrc.C33_parents_found",
    "Ripsrc.C33_recent_parents_found",
    "Ripsrc.C33_recent_kept",
    "Ripsrc.C33_checkpoint_restores",
    "Ripsrc.C33_on_disk"
   ],
   "note": "excluded is a merge that deletes a file x and has a file @@@del@@@x (C27_marker_collision proves that such a merge is reported wrongly); git blame is assumed to answer correctly, only for the files for which it is asked (Spec.HCommit.AsksBlame, C84)"
  },
  {
   "property": "C34",
   "status": "proved",
   "theorems": [
    "Ripsrc.C34_strict_mismatch",
    "Ripsrc.C34_not_strict",
    "Ripsrc.C34_strict_match",
    "Ripsrc.C34_version_written",
    "Ripsrc.C34_empty_log_not_checked",
    "Ripsrc.C34_unreadable_file"
   ],
   "note": "for a non-empty log; with an empty log nothing is checked (proved)"
  },
  {
   "property": "C35",
   "status": "proved",
   "theorems": [
    "Ripsrc.C35_crash",
    "Ripsrc.C35_completed",
    "Ripsrc.C35_history",
    "Ripsrc.C35_window"
   ],
   "note": "file operations are atomic steps; loss of power: C90"
  },
  {
   "property": "C36",
   "status": "proved",
   "theorems": [
    "Ripsrc.C36_rows",
    "Ripsrc.C36_blames",
    "Ripsrc.C36_lines",
    "Ripsrc.C36_line_data"
   ],
   "note": ""
  },
  {
   "property": "C37",
   "status": "proved",
   "theorems": [
    "Ripsrc.C37_rows",
    "Ripsrc.C37_blames",
    "Ripsrc.C37_lines",
    "Ripsrc.C37_line_data",
    "Ripsrc.C37_truncation_undetected",
    "Ripsrc.C37_read_iff",
    "Ripsrc.C37_read_sound"
   ],
   "note": ""
  },
  {
   "property": "C38",
   "status": "proved",
   "theorems": [
    "Ripsrc.C38_commit_parser",
    "Ripsrc.C38_added_symlink_reported_modified",
    "Ripsrc.C38_leading_space",
    "Ripsrc.C38_bad_date",
    "Ripsrc.C38_numbers",
    "Ripsrc.C38_no_commit",
    "Ripsrc.C38_short_raw_line",
    "Ripsrc.C38_combined_first"
   ],
   "note": ""
  },
  {
   "property": "C39",
   "status": "proved",
   "theorems": [
    "Ripsrc.C39_long_line_ends_log",
    "Ripsrc.C39_commits_lost"
   ],
   "note": "of the parser alone; in the running program the crash of C62 follows"
  },
  {
   "property": "C40",
   "status": "proved",
   "theorems": [
    "Ripsrc.C40_brace_rename",
    "Ripsrc.C40_plain_rename",
    "Ripsrc.C40_no_rename",
    "Ripsrc.C40_renamed_iff",
    "Ripsrc.C40_ambiguous",
    "Ripsrc.C40_brace_in_old_name"
   ],
   "note": ""
  },
  {
   "property": "C41",
   "status": "proved",
   "theorems": [
    "Ripsrc.C41_blame_parser",
    "Ripsrc.C41_blame_result",
    "Ripsrc.C41_second_path_loses_author",
    "Ripsrc.C41_nothing_dropped"
   ],
   "note": ""
  },
  {
   "property": "C42",
   "status": "proved",
   "theorems": [
    "Ripsrc.C42_code_records",
    "Ripsrc.C42_one_line_per_blame_line",
    "Ripsrc.C42_panics_only",
    "Ripsrc.C42_rename_without_blame_panics"
   ],
   "note": "scc and the file classifiers are arbitrary parameters"
  },
  {
   "property": "C43",
   "status": "proved",
   "theorems": [
    "Ripsrc.C43_authors",
    "Ripsrc.C43_incremental_loses_authors"
   ],
   "note": ""
  },
  {
   "property": "C44",
   "status": "proved",
   "theorems": [
    "Ripsrc.C44_line_classes"
   ],
   "note": "scc is an arbitrary interactive program"
  },
  {
   "property": "C45",
   "status": "proved",
   "theorems": [
    "Ripsrc.C45_processed_iff",
    "Ripsrc.C45_first_failing_check",
    "Ripsrc.C45_license_reported",
    "Ripsrc.C45_license",
    "Ripsrc.C45_panics_only_for_license_db",
    "Ripsrc.C45_license_tie_nondeterministic",
    "Ripsrc.C45_license_name_not_anchored"
   ],
   "note": "enry, the exclusion regexp and the licence database are arbitrary parameters; the licence name regexp is modelled"
  },
  {
   "property": "C46",
   "status": "proved",
   "theorems": [
    "Ripsrc.C46_history_independent",
    "Ripsrc.C46_answer"
   ],
   "note": ""
  },
  {
   "property": "C47",
   "status": "proved",
   "theorems": [
    "Ripsrc.C47_branch_listing",
    "Ripsrc.C47_short_origin_panics",
    "Ripsrc.C47_at_name_panics",
    "Ripsrc.C47_extra_lines",
    "Ripsrc.C47_no_default_name",
    "Ripsrc.C47_default_branch"
   ],
   "note": "date parser is an arbitrary function; names containing @@@ or ending in @ are excluded by hypothesis and shown to panic"
  },
  {
   "property": "C48",
   "status": "proved",
   "theorems": [
    "Ripsrc.C48_slowest_commits",
    "Ripsrc.C48_total"
   ],
   "note": ""
  },
  {
   "property": "C49",
   "status": "proved",
   "theorems": [
    "Ripsrc.C49_discovery",
    "Ripsrc.C49_exactly_the_repositories",
    "Ripsrc.C49_bare_repository_is_searched"
   ],
   "note": "the tree does not change during the search"
  },
  {
   "property": "C50",
   "status": "proved",
   "theorems": [
    "Ripsrc.C50_pipeline"
   ],
   "note": "goroutine semantics: unbuffered channels, arbitrary interleaving; the deferred calls of the calling goroutine during a panic are in C87; the result variable of CodeSlice is modelled as the value sent on its done channel"
  },
  {
   "property": "C51",
   "status": "proved",
   "theorems": [
    "Ripsrc.C51_common_ancestor",
    "Ripsrc.C51_terminates",
    "Ripsrc.C51_panics_iff",
    "Ripsrc.C51_no_heads",
    "Ripsrc.C51_not_lowest"
   ],
   "note": ""
  },
  {
   "property": "C52",
   "status": "proved",
   "theorems": [
    "Ripsrc.C52_complete_output",
    "Ripsrc.C52_cache_file_complete",
    "Ripsrc.C52_shared",
    "Ripsrc.C52_key_unambiguous",
    "Ripsrc.C52_key_ambiguous",
    "Ripsrc.C52_key_ignores_other_refs",
    "Ripsrc.C52_other_heads_ignored",
    "Ripsrc.C52_heads_told_apart",
    "Ripsrc.C52_concurrent_writers_corrupt",
    "Ripsrc.C52_ignored_close_error",
    "Ripsrc.C52_own_output",
    "Ripsrc.C52_concurrent_writers_mix"
   ],
   "note": "gzip not modelled; ExecWithCache has no caller at this commit"
  },
  {
   "property": "C53",
   "status": "proved",
   "theorems": [
    "Ripsrc.C53_quoted_with_space",
    "Ripsrc.C53_quoted_path_lost",
    "Ripsrc.C53_rename_to_quoted",
    "Ripsrc.C53_rename_example"
   ],
   "note": ""
  },
  {
   "property": "C54",
   "status": "proved",
   "theorems": [
    "Ripsrc.C54_apply",
    "Ripsrc.C54_merge",
    "Ripsrc.C54_same_failures",
    "Ripsrc.C54_history"
   ],
   "note": ""
  },
  {
   "property": "C55",
   "status": "proved",
   "theorems": [
    "Ripsrc.C55_error_returned",
    "Ripsrc.C55_checkpoint_error",
    "Ripsrc.C55_preparation_error",
    "Ripsrc.C55_panic",
    "Ripsrc.C55_returns_iff",
    "Ripsrc.C55_unknown_commit"
   ],
   "note": ""
  },
  {
   "property": "C56",
   "status": "proved",
   "theorems": [
    "Ripsrc.C56_truncated_checkpoint",
    "Ripsrc.C56_broken_commit_line",
    "Ripsrc.C56_foreign_line"
   ],
   "note": ""
  },
  {
   "property": "C57",
   "status": "proved",
   "theorems": [
    "Ripsrc.C57_code_of_a_history",
    "Ripsrc.C57_from_git_output"
   ],
   "note": "C57_from_git_output starts from the three texts that git prints; blame of merges by BlameWorks as in C24"
  },
  {
   "property": "C58",
   "status": "proved",
   "theorems": [
    "Ripsrc.C58_branches_of_repo",
    "Ripsrc.C58_errors",
    "Ripsrc.C58_listing_errors",
    "Ripsrc.C58_git_log_fails"
   ],
   "note": "the outputs of git are those of Spec/GitRepo.lean; the date parser is an arbitrary parameter; a failing git log is a panic of the caller in the model (in the code: of the goroutine of ExecPiped)"
  },
  {
   "property": "C59",
   "status": "proved",
   "theorems": [
    "Ripsrc.C59_same_result",
    "Ripsrc.C59_stale_graph_crashes",
    "Ripsrc.C59_new_commit_crashes",
    "Ripsrc.C59_retry_crashes"
   ],
   "note": ""
  },
  {
   "property": "C60",
   "status": "proved",
   "theorems": [
    "Ripsrc.C60_exit_status",
    "Ripsrc.C60_all_processed",
    "Ripsrc.C60_summary",
    "Ripsrc.C60_single_failure",
    "Ripsrc.C60_unreadable",
    "Ripsrc.C60_panic",
    "Ripsrc.C60_code_line",
    "Ripsrc.C60_head_commit"
   ],
   "note": "what a repository delivers is a parameter; colours, elapsed times, profiling and the timing tables are not modelled; the directory tree is static"
  },
  {
   "property": "C61",
   "status": "proved",
   "theorems": [
    "Ripsrc.C61_same_commits",
    "Ripsrc.C61_full",
    "Ripsrc.C61_inclusive",
    "Ripsrc.C61_exclusive",
    "Ripsrc.C61_refused",
    "Ripsrc.C61_start",
    "Ripsrc.C61_incremental",
    "Ripsrc.C61_overlap_one",
    "Ripsrc.C61_linear",
    "Ripsrc.C61_graph_knows",
    "Ripsrc.C61_all_branches_ignored",
    "Ripsrc.C61_merge_start_includes_older",
    "Ripsrc.C61_other_branch_missed",
    "Ripsrc.C61_start_not_reached"
   ],
   "note": "git's revision semantics (gitrevisions, git log) are specified in Spec/Revs.lean from its documentation"
  },
  {
   "property": "C62",
   "status": "proved",
   "theorems": [
    "Ripsrc.C62_result",
    "Ripsrc.C62_terminates",
    "Ripsrc.C62_can_end",
    "Ripsrc.C62_complete",
    "Ripsrc.C62_git_fails",
    "Ripsrc.C62_error",
    "Ripsrc.C62_metadata",
    "Ripsrc.C62_graph",
    "Ripsrc.C62_unread_output_crashes",
    "Ripsrc.C62_long_line_crashes",
    "Ripsrc.C62_long_line_crashes_graph"
   ],
   "note": "io.Pipe, exec.Cmd and bufio.Scanner are modelled from their documentation and source (not in /repo); a crash may be preempted only by the program ending first, which is not modelled"
  },
  {
   "property": "C63",
   "status": "proved",
   "theorems": [
    "Ripsrc.C63_files",
    "Ripsrc.C63_empty_tree",
    "Ripsrc.C63_leading_space",
    "Ripsrc.C63_git_fails"
   ],
   "note": "the package has no caller at this commit"
  },
  {
   "property": "C64",
   "status": "proved",
   "theorems": [
    "Ripsrc.C64_file",
    "Ripsrc.C64_not_compared",
    "Ripsrc.C64_success_anyway",
    "Ripsrc.C64_success_iff",
    "Ripsrc.C64_history"
   ],
   "note": "what the two goroutines print is modelled as one sequence; the map manuallyChecked is empty; C64_history: git blame answers for every file (the command asks it for all)"
  },
  {
   "property": "C65",
   "status": "proved",
   "theorems": [
    "Ripsrc.C65_missing_parent",
    "Ripsrc.C65_missing_file",
    "Ripsrc.C65_missing_file_merge",
    "Ripsrc.C65_source",
    "Ripsrc.C65_source_merge"
   ],
   "note": "for a merge the log has at most one entry for each parent, one after the other, and a diff names each new path once; new paths that begin with the marker @@@del@@@ of C27 are left out in merges"
  },
  {
   "property": "C66",
   "status": "proved",
   "theorems": [
    "Ripsrc.C66_rows",
    "Ripsrc.C66_blames",
    "Ripsrc.C66_lines",
    "Ripsrc.C66_line_data",
    "Ripsrc.C66_unknown_entries",
    "Ripsrc.C66_cut_in_unknown"
   ],
   "note": "the readers of msgp (not in /repo) are modelled from the MessagePack format"
  },
  {
   "property": "C67",
   "status": "proved",
   "theorems": [
    "Ripsrc.C67_rows",
    "Ripsrc.C67_blames",
    "Ripsrc.C67_lines",
    "Ripsrc.C67_line_data",
    "Ripsrc.C67_data",
    "Ripsrc.C67_stale_elements"
   ],
   "note": "memory reuse: the old content of slices is modelled, sharing of slices between objects is not"
  },
  {
   "property": "C68",
   "status": "proved",
   "theorems": [
    "Ripsrc.C68_ignored",
    "Ripsrc.C68_never_processed",
    "Ripsrc.C68_reason",
    "Ripsrc.C68_generated",
    "Ripsrc.C68_gaps",
    "Ripsrc.C68_not_anchored",
    "Ripsrc.C68_last_line",
    "Ripsrc.C68_complete_lines"
   ],
   "note": "package regexp is modelled for the syntax in use, on bytes; C68_generated is a fact about two committed texts, checked by evaluation in the kernel"
  },
  {
   "property": "C69",
   "status": "proved",
   "theorems": [
    "Ripsrc.C69_generator",
    "Ripsrc.C69_no_patterns"
   ],
   "note": "patterns of plain ASCII characters, * , ^ and $; the patterns file is read without errors"
  },
  {
   "property": "C70",
   "status": "proved",
   "theorems": [
    "Ripsrc.C70_generated",
    "Ripsrc.C70_license_name",
    "Ripsrc.C70_filename_mask",
    "Ripsrc.C70_tab_split",
    "Ripsrc.C70_rename"
   ],
   "note": "package regexp is modelled for the syntax in use, on bytes"
  },
  {
   "property": "C71",
   "status": "proved",
   "theorems": [
    "Ripsrc.C71_lines",
    "Ripsrc.C71_no_deadlock",
    "Ripsrc.C71_ends",
    "Ripsrc.C71_complete",
    "Ripsrc.C71_record",
    "Ripsrc.C71_bad_args",
    "Ripsrc.C71_injection",
    "Ripsrc.C71_glued"
   ],
   "note": "what %v prints for a value that is not a string is a parameter; String methods that panic or log are not modelled"
  },
  {
   "property": "C72",
   "status": "proved",
   "theorems": [
    "Ripsrc.C72_returns",
    "Ripsrc.C72_panic",
    "Ripsrc.C72_parser",
    "Ripsrc.C72_parser_fails"
   ],
   "note": "goroutine semantics as in C50; the shared variable err is modelled as the value of the message on done, which orders its write before its read"
  },
  {
   "property": "C73",
   "status": "proved",
   "theorems": [
    "Ripsrc.C73_string",
    "Ripsrc.C73_panics",
    "Ripsrc.C73_large_alphabet",
    "Ripsrc.C73_bias"
   ],
   "note": "the random bytes are a parameter; the package has no caller at this commit"
  },
  {
   "property": "C74",
   "status": "proved",
   "theorems": [
    "Ripsrc.C74_eq",
    "Ripsrc.C74_eq_ignores_binary",
    "Ripsrc.C74_string",
    "Ripsrc.C74_debug",
    "Ripsrc.C74_count",
    "Ripsrc.C74_path_or_prev"
   ],
   "note": ""
  },
  {
   "property": "C75",
   "status": "proved",
   "theorems": [
    "Ripsrc.C75_kept",
    "Ripsrc.C75_only_ancestors",
    "Ripsrc.C75_removed",
    "Ripsrc.C75_growth"
   ],
   "note": "any sequence of runs, each resuming from the checkpoint of the one before (`RunsOn`)"
  },
  {
   "property": "C76",
   "status": "proved",
   "theorems": [
    "Ripsrc.C76_decorated_log",
    "Ripsrc.C76_short_names",
    "Ripsrc.C76_regular_unaffected",
    "Ripsrc.C76_decorated_parent",
    "Ripsrc.C76_merge_taken_over",
    "Ripsrc.C76_merge_fails",
    "Ripsrc.C76_prefix_panics",
    "Ripsrc.C76_prefix_space",
    "Ripsrc.C76_dense_combined",
    "Ripsrc.C76_coloured",
    "Ripsrc.C76_signature",
    "Ripsrc.C76_submodule",
    "Ripsrc.C76_suppress_blank_empty",
    "Ripsrc.C76_suppress_blank_empty_end",
    "Ripsrc.C76_copy",
    "Ripsrc.C76_copy_attribution",
    "Ripsrc.C76_copy_space",
    "Ripsrc.C76_show_root"
   ],
   "note": "what git prints under each setting is specified in Spec/GitConfig.lean from its documentation; C76_merge_fails: runs from the beginning, merges of two parents; C76_show_root: for the first change after the root that needs the old file"
  },
  {
   "property": "C77",
   "status": "proved",
   "theorems": [
    "Ripsrc.C77_calendar",
    "Ripsrc.C77_author_date",
    "Ripsrc.C77_branch_date",
    "Ripsrc.C77_late_year",
    "Ripsrc.C77_zone_rejected",
    "Ripsrc.C77_commits",
    "Ripsrc.C77_commit_fails",
    "Ripsrc.C77_branches",
    "Ripsrc.C77_branch_panics",
    "Ripsrc.C77_only_author_dates",
    "Ripsrc.C77_only_branch_dates",
    "Ripsrc.C77_no_at"
   ],
   "note": "package time is not in /repo: time.Parse for the two layouts is modelled from its source, differences between its versions are parameters (TimePkg); names of zones are not modelled; the formats of git are in Spec/Time.lean"
  },
  {
   "property": "C78",
   "status": "proved",
   "theorems": [
    "Ripsrc.C78_incremental_code",
    "Ripsrc.C78_after_crashes",
    "Ripsrc.C78_from_git_output"
   ],
   "note": "C78_from_git_output starts from the texts that git prints for the two calls; parents that are needed must be stored, with files (C33, C65); excluded are merges that delete and write the same path (C30); git as in C57; file operations as in C35"
  },
  {
   "property": "C79",
   "status": "proved",
   "theorems": [
    "Ripsrc.C79_code",
    "Ripsrc.C79_branches",
    "Ripsrc.C79_getAll",
    "Ripsrc.C79_code_visible",
    "Ripsrc.C79_branches_visible",
    "Ripsrc.C79_memory_log_race"
   ],
   "note": "which control state makes which accesses is part of the model (Model/Access.lean); the happens-before order is in Spec/HappensBefore.lean; blames inside results: C54; the deferred calls during a panic (C87) and concurrent calls on one object, which do race (C88), are not part of these systems"
  },
  {
   "property": "C80",
   "status": "proved",
   "theorems": [
    "Ripsrc.C80_streamed",
    "Ripsrc.C80_drained",
    "Ripsrc.C80_abandoned",
    "Ripsrc.C80_panic"
   ],
   "note": "the consumer is any relation between what it has seen and the channels it is ready for (Model/Stream.lean); the specification of the stream and of draining is Spec/CommitStream.lean; the runs are those in which Run does not panic (a panicking Run: C87); C80_panic: the panic itself is C50/C55; cancelled contexts are not modelled (the goroutines of the call do not look at the context)"
  },
  {
   "property": "C81",
   "status": "proved",
   "theorems": [
    "Ripsrc.C81_alone_succeeds",
    "Ripsrc.C81_read_during_write",
    "Ripsrc.C81_reader_for_new_commit",
    "Ripsrc.C81_every_mixture",
    "Ripsrc.C81_reader_for_old_commit",
    "Ripsrc.C81_wrong_blame",
    "Ripsrc.C81_two_writers"
   ],
   "note": "file operations are atomic and act on names, as in C35; a file that is open keeps its content; the reader is modelled by the moments at which it opens its files (Model/CheckpointRace.lean); the negative claims are theorems for all records and commits"
  },
  {
   "property": "C82",
   "status": "proved",
   "theorems": [
    "Ripsrc.C82_only_ancestors_matter",
    "Ripsrc.C82_same_records"
   ],
   "note": "the same git prints the same blame text for the same commit and path in both repositories (SameEnv); merges that delete and write the same path (a type change) are excluded, as in C30, where their order dependence is proved; the metadata of the shared commits is the same up to the ordinal"
  },
  {
   "property": "C83",
   "status": "proved",
   "theorems": [
    "Ripsrc.C83_no_records",
    "Ripsrc.C83_rename_source",
    "Ripsrc.C83_rename_of_quoted_fails",
    "Ripsrc.C83_rename_with_change_fails",
    "Ripsrc.C83_binary_rename",
    "Ripsrc.C83_merge_rename_fails"
   ],
   "note": "quoted names without a space (with one: C53); what git prints in the metadata is CommitRec.QuotesPaths; that the results contain such files follows from C24-C27, whose histories allow them, and is restated in C83_no_records; C83_binary_rename speaks of the result of the commit that renames, not of what later commits make of the file under its quoted name; in C83_merge_rename_fails no new name begins with the marker @@@del@@@"
  },
  {
   "property": "C84",
   "status": "proved",
   "theorems": [
    "Ripsrc.C84_blame_fails",
    "Ripsrc.C84_crash",
    "Ripsrc.C84_mode_change_asks",
    "Ripsrc.C84_mode_change_is_text"
   ],
   "note": "when git blame is asked is Spec.HCommit.AsksBlame; that it is asked in no other case shows in C24-C27, whose hypotheses speak only about these files"
  },
  {
   "property": "C85",
   "status": "proved",
   "theorems": [
    "Ripsrc.C85_result",
    "Ripsrc.C85_terminates",
    "Ripsrc.C85_can_end",
    "Ripsrc.C85_leak",
    "Ripsrc.C85_every_call_leaks"
   ],
   "note": "on top of the system of C62 (Model/FileJobs.lean); that the code has no statement that closes the channel is a fact about the text, in the model the absence of a step"
  },
  {
   "property": "C86",
   "status": "proved",
   "theorems": [
    "Ripsrc.C86_code_stream",
    "Ripsrc.C86_code_drained",
    "Ripsrc.C86_code_abandoned",
    "Ripsrc.C86_branches_stream",
    "Ripsrc.C86_branches_drained",
    "Ripsrc.C86_branches_abandoned"
   ],
   "note": "the hypothesis, that the slice variant returns in every schedule, is the conclusion of C50, C55, C57, C61 (AlwaysReturns) and of C22 (branches_always_good, branches_always_error); the receiver is one goroutine, given by the histories after which it is ready"
  },
  {
   "property": "C87",
   "status": "proved",
   "theorems": [
    "Ripsrc.C87_code_calm",
    "Ripsrc.C87_by_commit_calm",
    "Ripsrc.C87_code",
    "Ripsrc.C87_slice",
    "Ripsrc.C87_by_commit",
    "Ripsrc.C87_by_commit_dies",
    "Ripsrc.C87_closed_early",
    "Ripsrc.C87_records_missing",
    "Ripsrc.C87_preparation",
    "Ripsrc.C87_preparation_closed"
   ],
   "note": "the deferred close calls of the panicking caller are in Model/Unwind.lean; the death of the program is the state after them, other goroutines run on until then; the deferred r.Close() of Run is not seen by these goroutines and not modelled; recovery of the panic by a caller of Code is not modelled"
  },
  {
   "property": "C88",
   "status": "proved",
   "theorems": [
    "Ripsrc.C88_after_first",
    "Ripsrc.C88_overlap_crashes",
    "Ripsrc.C88_overlap_wrong_record",
    "Ripsrc.C88_one_after_the_other",
    "Ripsrc.C88_last_reader"
   ],
   "note": "accesses to the field and to the graph are single steps, the Go memory model promises less (Model/SharedObject.lean); of concurrent calls of Code only the commit graph is modelled; C88_overlap_wrong_record is the proved negation, on one repository, of the claim for overlapping first calls"
  },
  {
   "property": "C89",
   "status": "proved",
   "theorems": [
    "Ripsrc.C89_needs_old",
    "Ripsrc.C89_crash",
    "Ripsrc.C89_damaged_checkpoint",
    "Ripsrc.C89_later_run_fails",
    "Ripsrc.C89_mode_change",
    "Ripsrc.C89_from_empty",
    "Ripsrc.C89_merge_repeated",
    "Ripsrc.C89_first_graph",
    "Ripsrc.C89_second_call"
   ],
   "note": "C89_first_graph and C89_second_call link it to the object (Model/SharedObject.lean); apart from the crash, only a commit that is the last one of the log is treated"
  },
  {
   "property": "C90",
   "status": "proved",
   "theorems": [
    "Ripsrc.C90_part",
    "Ripsrc.C90_version",
    "Ripsrc.C90_not_noticed",
    "Ripsrc.C90_linear",
    "Ripsrc.C90_on_disk",
    "Ripsrc.C90_mode_not_noticed",
    "Ripsrc.C90_merge_not_noticed"
   ],
   "note": "a torn file is a beginning of what was written (blocks of zeroes or garbage are not considered); excluded from the linear part: changes of the mode only and patches that only add lines to a file whose old version they do not show; gzip is a parameter of which Spec/PowerLoss.lean says what is used"
  },
  {
   "property": "C91",
   "status": "proved",
   "theorems": [
    "Ripsrc.C91_same_default",
    "Ripsrc.C91_default_record",
    "Ripsrc.C91_stays_merged",
    "Ripsrc.C91_commits_shrink",
    "Ripsrc.C91_work_kept",
    "Ripsrc.C91_behind_grows",
    "Ripsrc.C91_merge",
    "Ripsrc.C91_fast_forward",
    "Ripsrc.C91_merge_commit_smallest",
    "Ripsrc.C91_merge_commit_changes"
   ],
   "note": "BranchesGive is the set of all results of the call of C58 (Props/BranchGrowth.lean); that two repositories are the same at two moments is SameHashes (Spec/BranchGrowth.lean)"
  }
 ]
}
