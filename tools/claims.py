claim("C12","proved",["C12_graph_reader","C12_too_long"])
claim("C13","proved",["C13_children_inverse","C13_order_independent"])
claim("C14","proved",["C14_default_branch"])
claim("C15","proved",["C15_unmerged_commits"])
claim("C16","proved",["C16_merged_commits"])
claim("C17","proved",["C17_branch_points","C17_unmerged","C17_order_independent"])
claim("C18","proved",["C18_behind_exact","C18_behind_exact_iff","C18_behind_lower","C18_behind_exact_linear","C18_exact_is_false","C18_no_branch_point"],"the equality promised by the doc comment is characterised exactly (iff) and shown false in general")
claim("C19","proved",["C19_merge_commit","C19_head_is_default"])
claim("C20","proved",["C20_before_a_child","C20_order_tree","C20_order_is_false"],"the documented order is false of the code in general; counter-example proved")
claim("C21","proved",["C21_record","C21_unknown_pr","C21_succeeds"])
claim("C23","proved",["C23_branch_id","C23_branch_id_none","C23_ambiguous"])
claim("C01","proved",["C01_apply_reproduces_new_file","C01_no_cr"])
claim("C02","proved",["C02_apply_attribution"])
claim("C03","proved",["C03_hunk_order","C03_equal_offsets_matter"])
claim("C04","proved",["C04_apply_rejects"])
claim("C05","proved",["C05_merge_blame"])
claim("C06","proved",["C06_merge_rejects","C06_content_not_compared"])
claim("C09","proved",["C09_insertion","C09_omitted_count","C09_everywhere","C09_zero_context_misapplied","C09_omitted_count_misapplied"],"the positive statement is C01")
claim("C07","proved",["C07_parse_inverts_render","C07_parse_then_apply","C07_too_long","C07_combined"])
claim("C08","proved",["C08_hunk_header","C08_plain_header"])
claim("C10","proved",["C10_decl_without_spaces","C10_decl_same_name","C10_decl_spaced_rename","C10_wrong_pair"])
claim("C53","proved",["C53_quoted_with_space","C53_quoted_path_lost","C53_rename_to_quoted","C53_rename_example"])
claim("C54","proved",["C54_apply","C54_merge","C54_same_failures","C54_history"])
claim("C11","proved",["C11_log_parser","C11_too_long","C11_then_parse","C11_changes_are_diffs","C11_blank_context_line_panics","C11_trailing_blank_duplicates"])
claim("C41","proved",["C41_blame_parser","C41_blame_result","C41_second_path_loses_author","C41_nothing_dropped"])
claim("C47","proved",["C47_branch_listing","C47_short_origin_panics","C47_at_name_panics","C47_extra_lines","C47_no_default_name","C47_default_branch"],"date parser is an arbitrary function; names containing @@@ or ending in @ are excluded by hypothesis and shown to panic")
claim("C40","proved",["C40_brace_rename","C40_plain_rename","C40_no_rename","C40_renamed_iff","C40_ambiguous","C40_brace_in_old_name"])
claim("C38","proved",["C38_commit_parser","C38_added_symlink_reported_modified","C38_leading_space","C38_bad_date","C38_numbers","C38_no_commit","C38_short_raw_line","C38_combined_first"])
claim("C39","proved",["C39_long_line_ends_log","C39_commits_lost"],"of the parser alone; in the running program the crash of C62 follows")
HN="excluded is a merge that deletes a file x and has a file @@@del@@@x (C27_marker_collision proves that such a merge is reported wrongly); git blame is assumed to answer correctly, only for the files for which it is asked (Spec.HCommit.AsksBlame, C84)"
claim("C24","proved",["C24_one_result_per_commit","C24_history","C24_blame_commit"],HN)
claim("C25","proved",["C25_blame_content","C25_result_content","C25_binary_without_lines"],HN)
claim("C26","proved",["C26_blame_attribution","C26_known_commits"],HN)
claim("C27","proved",["C27_reported_files","C27_marker_collision"],HN)
claim("C28","proved",["C28_parents_retained"],HN)
claim("C29","proved",["C29_retained_bound","C29_unloader_fifo","C29_not_across_resumes"],HN)
claim("C30","proved",["C30_map_order","C30_type_change_depends_on_order"],HN)
claim("C33","proved",["C33_incremental_equals_full","C33_parents_found","C33_recent_parents_found","C33_recent_kept","C33_checkpoint_restores","C33_on_disk"],HN)
claim("C31","proved",["C31_round_trip"],"MessagePack primitives and gzip are modelled from their documentation (not in /repo)")
claim("C32","proved",["C32_empty_commit_lost","C32_child_of_lost_commit_fails","C32_collision_corrupts"])
claim("C34","proved",["C34_strict_mismatch","C34_not_strict","C34_strict_match","C34_version_written","C34_empty_log_not_checked","C34_unreadable_file"],"for a non-empty log; with an empty log nothing is checked (proved)")
claim("C35","proved",["C35_crash","C35_completed","C35_history","C35_window"],"file operations are atomic steps; loss of power: C90")
claim("C36","proved",["C36_rows","C36_blames","C36_lines","C36_line_data"])
claim("C37","proved",["C37_rows","C37_blames","C37_lines","C37_line_data","C37_truncation_undetected","C37_read_iff","C37_read_sound"])
claim("C51","proved",["C51_common_ancestor","C51_terminates","C51_panics_iff","C51_no_heads","C51_not_lowest"])
claim("C48","proved",["C48_slowest_commits","C48_total"])
claim("C45","proved",["C45_processed_iff","C45_first_failing_check","C45_license_reported","C45_license","C45_panics_only_for_license_db","C45_license_tie_nondeterministic","C45_license_name_not_anchored"],"enry, the exclusion regexp and the licence database are arbitrary parameters; the licence name regexp is modelled")
claim("C46","proved",["C46_history_independent","C46_answer"])
claim("C42","proved",["C42_code_records","C42_one_line_per_blame_line","C42_panics_only","C42_rename_without_blame_panics"],"scc and the file classifiers are arbitrary parameters")
claim("C43","proved",["C43_authors","C43_incremental_loses_authors"])
claim("C44","proved",["C44_line_classes"],"scc is an arbitrary interactive program")
claim("C49","proved",["C49_discovery","C49_exactly_the_repositories","C49_bare_repository_is_searched"],"the tree does not change during the search")
claim("C52","proved",["C52_complete_output","C52_cache_file_complete","C52_shared","C52_key_unambiguous","C52_key_ambiguous","C52_key_ignores_other_refs","C52_other_heads_ignored","C52_heads_told_apart","C52_concurrent_writers_corrupt","C52_ignored_close_error","C52_own_output","C52_concurrent_writers_mix"],"gzip not modelled; ExecWithCache has no caller at this commit")
claim("C50","proved",["C50_pipeline"],"goroutine semantics: unbuffered channels, arbitrary interleaving; the deferred calls of the calling goroutine during a panic are in C87; the result variable of CodeSlice is modelled as the value sent on its done channel")
claim("C55","proved",["C55_error_returned","C55_checkpoint_error","C55_preparation_error","C55_panic","C55_returns_iff","C55_unknown_commit"])
claim("C56","proved",["C56_truncated_checkpoint","C56_broken_commit_line","C56_foreign_line"])
claim("C57","proved",["C57_code_of_a_history","C57_from_git_output"],"C57_from_git_output starts from the three texts that git prints; blame of merges by BlameWorks as in C24")
claim("C22","proved",["C22_worker_pool","C22_error"],"all options; C22_error is the run in which loading the branches or the default branch fails; lastErr is not modelled (processBranch never returns an error, it panics); goroutine semantics as in C50")
claim("C58","proved",["C58_branches_of_repo","C58_errors","C58_listing_errors","C58_git_log_fails"],"the outputs of git are those of Spec/GitRepo.lean; the date parser is an arbitrary parameter; a failing git log is a panic of the caller in the model (in the code: of the goroutine of ExecPiped)")
claim("C59","proved",["C59_same_result","C59_stale_graph_crashes","C59_new_commit_crashes","C59_retry_crashes"])
claim("C60","proved",["C60_exit_status","C60_all_processed","C60_summary","C60_single_failure","C60_unreadable","C60_panic","C60_code_line","C60_head_commit"],"what a repository delivers is a parameter; colours, elapsed times, profiling and the timing tables are not modelled; the directory tree is static")
claim("C61","proved",["C61_same_commits","C61_full","C61_inclusive","C61_exclusive","C61_refused","C61_start","C61_incremental","C61_overlap_one","C61_linear","C61_graph_knows","C61_all_branches_ignored","C61_merge_start_includes_older","C61_other_branch_missed","C61_start_not_reached"],"git's revision semantics (gitrevisions, git log) are specified in Spec/Revs.lean from its documentation")
claim("C63","proved",["C63_files","C63_empty_tree","C63_leading_space","C63_git_fails"],"the package has no caller at this commit")
claim("C64","proved",["C64_file","C64_not_compared","C64_success_anyway","C64_success_iff","C64_history"],"what the two goroutines print is modelled as one sequence; the map manuallyChecked is empty; C64_history: git blame answers for every file (the command asks it for all)")
claim("C62","proved",["C62_result","C62_terminates","C62_can_end","C62_complete","C62_git_fails","C62_error","C62_metadata","C62_graph","C62_unread_output_crashes","C62_long_line_crashes","C62_long_line_crashes_graph"],"io.Pipe, exec.Cmd and bufio.Scanner are modelled from their documentation and source (not in /repo); a crash may be preempted only by the program ending first, which is not modelled")
claim("C65","proved",["C65_missing_parent","C65_missing_file","C65_missing_file_merge","C65_source","C65_source_merge"],"for a merge the log has at most one entry for each parent, one after the other, and a diff names each new path once; new paths that begin with the marker @@@del@@@ of C27 are left out in merges")
claim("C66","proved",["C66_rows","C66_blames","C66_lines","C66_line_data","C66_unknown_entries","C66_cut_in_unknown"],"the readers of msgp (not in /repo) are modelled from the MessagePack format")
claim("C67","proved",["C67_rows","C67_blames","C67_lines","C67_line_data","C67_data","C67_stale_elements"],"memory reuse: the old content of slices is modelled, sharing of slices between objects is not")
claim("C68","proved",["C68_ignored","C68_never_processed","C68_reason","C68_generated","C68_gaps","C68_not_anchored","C68_last_line","C68_complete_lines"],"package regexp is modelled for the syntax in use, on bytes; C68_generated is a fact about two committed texts, checked by evaluation in the kernel")
claim("C69","proved",["C69_generator","C69_no_patterns"],"patterns of plain ASCII characters, * , ^ and $; the patterns file is read without errors")
claim("C70","proved",["C70_generated","C70_license_name","C70_filename_mask","C70_tab_split","C70_rename"],"package regexp is modelled for the syntax in use, on bytes")
claim("C71","proved",["C71_lines","C71_no_deadlock","C71_ends","C71_complete","C71_record","C71_bad_args","C71_injection","C71_glued"],"what %v prints for a value that is not a string is a parameter; String methods that panic or log are not modelled")
claim("C72","proved",["C72_returns","C72_panic","C72_parser","C72_parser_fails"],"goroutine semantics as in C50; the shared variable err is modelled as the value of the message on done, which orders its write before its read")
claim("C73","proved",["C73_string","C73_panics","C73_large_alphabet","C73_bias"],"the random bytes are a parameter; the package has no caller at this commit")
claim("C74","proved",["C74_eq","C74_eq_ignores_binary","C74_string","C74_debug","C74_count","C74_path_or_prev"],"")
claim("C75","proved",["C75_kept","C75_only_ancestors","C75_removed","C75_growth"],"any sequence of runs, each resuming from the checkpoint of the one before (`RunsOn`)")
claim("C76","proved",["C76_decorated_log","C76_short_names","C76_regular_unaffected","C76_decorated_parent","C76_merge_taken_over","C76_merge_fails","C76_prefix_panics","C76_prefix_space","C76_dense_combined","C76_coloured","C76_signature","C76_submodule","C76_suppress_blank_empty","C76_suppress_blank_empty_end","C76_copy","C76_copy_attribution","C76_copy_space","C76_show_root"],"what git prints under each setting is specified in Spec/GitConfig.lean from its documentation; C76_merge_fails: runs from the beginning, merges of two parents; C76_show_root: for the first change after the root that needs the old file")
claim("C77","proved",["C77_calendar","C77_author_date","C77_branch_date","C77_late_year","C77_zone_rejected","C77_commits","C77_commit_fails","C77_branches","C77_branch_panics","C77_only_author_dates","C77_only_branch_dates","C77_no_at"],"package time is not in /repo: time.Parse for the two layouts is modelled from its source, differences between its versions are parameters (TimePkg); names of zones are not modelled; the formats of git are in Spec/Time.lean")
claim("C78","proved",["C78_incremental_code","C78_after_crashes","C78_from_git_output"],"C78_from_git_output starts from the texts that git prints for the two calls; parents that are needed must be stored, with files (C33, C65); excluded are merges that delete and write the same path (C30); git as in C57; file operations as in C35")
claim("C79","proved",["C79_code","C79_branches","C79_getAll","C79_code_visible","C79_branches_visible","C79_memory_log_race"],"which control state makes which accesses is part of the model (Model/Access.lean); the happens-before order is in Spec/HappensBefore.lean; blames inside results: C54; the deferred calls during a panic (C87) and concurrent calls on one object, which do race (C88), are not part of these systems")
claim("C80","proved",["C80_streamed","C80_drained","C80_abandoned","C80_panic"],"the consumer is any relation between what it has seen and the channels it is ready for (Model/Stream.lean); the specification of the stream and of draining is Spec/CommitStream.lean; the runs are those in which Run does not panic (a panicking Run: C87); C80_panic: the panic itself is C50/C55; cancelled contexts are not modelled (the goroutines of the call do not look at the context)")
claim("C81","proved",["C81_alone_succeeds","C81_read_during_write","C81_reader_for_new_commit","C81_every_mixture","C81_reader_for_old_commit","C81_wrong_blame","C81_two_writers"],"file operations are atomic and act on names, as in C35; a file that is open keeps its content; the reader is modelled by the moments at which it opens its files (Model/CheckpointRace.lean); the negative claims are theorems for all records and commits")
claim("C82","proved",["C82_only_ancestors_matter","C82_same_records"],"the same git prints the same blame text for the same commit and path in both repositories (SameEnv); merges that delete and write the same path (a type change) are excluded, as in C30, where their order dependence is proved; the metadata of the shared commits is the same up to the ordinal")
claim("C83","proved",["C83_no_records","C83_rename_source","C83_rename_of_quoted_fails","C83_rename_with_change_fails","C83_binary_rename","C83_merge_rename_fails"],"quoted names without a space (with one: C53); what git prints in the metadata is CommitRec.QuotesPaths; that the results contain such files follows from C24-C27, whose histories allow them, and is restated in C83_no_records; C83_binary_rename speaks of the result of the commit that renames, not of what later commits make of the file under its quoted name; in C83_merge_rename_fails no new name begins with the marker @@@del@@@")
claim("C84","proved",["C84_blame_fails","C84_crash","C84_mode_change_asks","C84_mode_change_is_text"],"when git blame is asked is Spec.HCommit.AsksBlame; that it is asked in no other case shows in C24-C27, whose hypotheses speak only about these files")
claim("C85","proved",["C85_result","C85_terminates","C85_can_end","C85_leak","C85_every_call_leaks"],"on top of the system of C62 (Model/FileJobs.lean); that the code has no statement that closes the channel is a fact about the text, in the model the absence of a step")
claim("C86","proved",["C86_code_stream","C86_code_drained","C86_code_abandoned","C86_branches_stream","C86_branches_drained","C86_branches_abandoned"],"the hypothesis, that the slice variant returns in every schedule, is the conclusion of C50, C55, C57, C61 (AlwaysReturns) and of C22 (branches_always_good, branches_always_error); the receiver is one goroutine, given by the histories after which it is ready")
claim("C87","proved",["C87_code_calm","C87_by_commit_calm","C87_code","C87_slice","C87_by_commit","C87_by_commit_dies","C87_closed_early","C87_records_missing","C87_preparation","C87_preparation_closed"],"the deferred close calls of the panicking caller are in Model/Unwind.lean; the death of the program is the state after them, other goroutines run on until then; the deferred r.Close() of Run is not seen by these goroutines and not modelled; recovery of the panic by a caller of Code is not modelled")
claim("C88","proved",["C88_after_first","C88_overlap_crashes","C88_overlap_wrong_record","C88_one_after_the_other","C88_last_reader"],"accesses to the field and to the graph are single steps, the Go memory model promises less (Model/SharedObject.lean); of concurrent calls of Code only the commit graph is modelled; C88_overlap_wrong_record is the proved negation, on one repository, of the claim for overlapping first calls")
claim("C89","proved",["C89_needs_old","C89_crash","C89_damaged_checkpoint","C89_later_run_fails","C89_mode_change","C89_from_empty","C89_merge_repeated","C89_first_graph","C89_second_call"],"C89_first_graph and C89_second_call link it to the object (Model/SharedObject.lean); apart from the crash, only a commit that is the last one of the log is treated")
claim("C90","proved",["C90_part","C90_version","C90_not_noticed","C90_linear","C90_on_disk","C90_mode_not_noticed","C90_merge_not_noticed"],"a torn file is a beginning of what was written (blocks of zeroes or garbage are not considered); excluded from the linear part: changes of the mode only and patches that only add lines to a file whose old version they do not show; gzip is a parameter of which Spec/PowerLoss.lean says what is used")
claim("C91","proved",["C91_same_default","C91_default_record","C91_stays_merged","C91_commits_shrink","C91_work_kept","C91_behind_grows","C91_merge","C91_fast_forward","C91_merge_commit_smallest","C91_merge_commit_changes"],"BranchesGive is the set of all results of the call of C58 (Props/BranchGrowth.lean); that two repositories are the same at two moments is SameHashes (Spec/BranchGrowth.lean)")
