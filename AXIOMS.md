# Axioms of the theorems of the manifest (`#print axioms`)

## none

* `LJ.Cli.C67_false`
* `LJ.Cli.C67_next_fails`
* `LJ.Cli.C67_race`
* `LJ.Codec.C70_injective`

## Classical.choice, Quot.sound, propext

* `LJ.Cache.C52_false`
* `LJ.Cache.C52_partial`
* `LJ.Cache.C52_url`
* `LJ.Cache.C53_cached`
* `LJ.Cache.C53_reader`
* `LJ.Cache.C54_false`
* `LJ.Cache.C54_partial`
* `LJ.Cache.C54_witness`
* `LJ.Cache.C55_kept`
* `LJ.Cache.C55_refused`
* `LJ.Cache.C56_added`
* `LJ.Cache.C56_false`
* `LJ.Cache.C56_iter`
* `LJ.Cache.C56_listing`
* `LJ.Cache.C56_partial`
* `LJ.Cache.C57_kept`
* `LJ.Cache.C79_false`
* `LJ.Cache.C79_witness`
* `LJ.Cli.C85_full`
* `LJ.Cli.codecFormat`
* `LJ.Codec.C149_confused`
* `LJ.Codec.C149_empty`
* `LJ.Codec.C149_false`
* `LJ.Codec.C149_file_partial`
* `LJ.Codec.C149_model_partial`
* `LJ.Codec.C149_report_partial`
* `LJ.Codec.C149_short_partial`
* `LJ.Codec.C152_false`
* `LJ.Codec.C152_partial`
* `LJ.Codec.C152_unchecked`
* `LJ.Codec.C153_exact`
* `LJ.Codec.C153_loaded`
* `LJ.Codec.C70_duration`
* `LJ.Codec.C70_listing`
* `LJ.Codec.C70_matrix`
* `LJ.Codec.C70_model`
* `LJ.Codec.C70_model_saved`
* `LJ.Codec.C70_path`
* `LJ.Codec.C70_report`
* `LJ.Codec.C70_report_saved`
* `LJ.Codec.C80_truncated`
* `LJ.Crawler.C147_false`
* `LJ.Crawler.C147_partial`
* `LJ.Crawler.C147_schedules`
* `LJ.Crawler.C147_walk`
* `LJ.Crawler.C147_width`
* `LJ.Crawler.C47_complete`
* `LJ.Crawler.C47_needs_join`
* `LJ.Crawler.C47_schedules`
* `LJ.Crawler.C48_errors`
* `LJ.Crawler.C48_panic_once`
* `LJ.Crawler.C49_terminates`
* `LJ.Crawler.C49_visits`
* `LJ.Crawler.C50_always_ends`
* `LJ.Crawler.C50_ends`
* `LJ.Crawler.C50_false`
* `LJ.Crawler.C50_order`
* `LJ.Crawler.C50_panics_partial`
* `LJ.Crawler.C50_partial`
* `LJ.Crawler.C50_quiet`
* `LJ.Crawler.C50_sound`
* `LJ.Crawler.C51_false`
* `LJ.Crawler.C51_partial`
* `LJ.Crawler.C78_join`
* `LJ.Crawler.C78_links`
* `LJ.Dataset.C68_datasets`
* `LJ.Dataset.C68_panic`
* `LJ.Dataset.C68_process`
* `LJ.Dataset.C68_reason`
* `LJ.Dataset.C68_verdict`
* `LJ.Generate.C69_line`
* `LJ.Generate.C69_lines`
* `LJ.Generate.C69_python`
* `LJ.Generate.C69_read_back`
* `LJ.Generate.C69_words`
* `LJ.Index.C138_cosine`
* `LJ.Index.C17_at_most_one`
* `LJ.Index.C17_f32_false`
* `LJ.Index.C17_range`
* `LJ.Index.C17_rounding`
* `LJ.Index.C18_rounding`
* `LJ.Index.C18_zero`
* `LJ.Index.C19_agree`
* `LJ.Index.C19_chunks`
* `LJ.Index.C19_chunks_any_rounding`
* `LJ.Index.C19_mat`
* `LJ.Index.C19_rounding`
* `LJ.Index.C19_rounding_uniform`
* `LJ.Index.C19_rows`
* `LJ.Index.C19_rows_f32`
* `LJ.Index.C20_arrangement`
* `LJ.Index.C20_targets`
* `LJ.Index.C21_add`
* `LJ.Index.C21_monotone`
* `LJ.Index.C22_columns`
* `LJ.Index.C22_order_insensitive`
* `LJ.Index.C22_order_matters_on_collision`
* `LJ.Index.C22_well_formed`
* `LJ.Index.C23_below_one`
* `LJ.Index.C23_disjoint`
* `LJ.Index.C23_zero_iff`
* `LJ.Iterator.C01_edge_one_read`
* `LJ.Iterator.C01_edge_two_reads`
* `LJ.Iterator.C01_schedule_independent`
* `LJ.Iterator.C01_short_lines`
* `LJ.Iterator.C02_C03_pieces_are_the_content`
* `LJ.Iterator.C02_C03_plain_text`
* `LJ.Iterator.C02_lines_spec`
* `LJ.Iterator.C03_C05_full_read_lost`
* `LJ.Iterator.C03_line_numbers_partial`
* `LJ.Iterator.C03_numbers_sorted`
* `LJ.Iterator.C04_line_size`
* `LJ.Iterator.C05_long_line_partial`
* `LJ.Iterator.C05_neighbour_corrupted`
* `LJ.Iterator.C05_neighbour_lost`
* `LJ.Iterator.C06_bounded_buffer`
* `LJ.Iterator.C07_error_never_swallowed`
* `LJ.Iterator.C07_error_position_partial`
* `LJ.Iterator.C07_line_lost_before_error`
* `LJ.Iterator.C08_debug_no_panic_partial`
* `LJ.Iterator.C08_debug_panics`
* `LJ.Iterator.C08_release_finishes`
* `LJ.Iterator.C08_release_no_panic`
* `LJ.Iterator.C08_stays_finished`
* `LJ.Iterator.C125_after`
* `LJ.Iterator.C125_before`
* `LJ.Iterator.C125_debug`
* `LJ.Iterator.C125_error`
* `LJ.Iterator.C125_exact`
* `LJ.Iterator.C133_lines_false`
* `LJ.Iterator.C133_lines_open_false`
* `LJ.Iterator.C136_cut_json_false`
* `LJ.Iterator.C90_before`
* `LJ.Iterator.C90_local`
* `LJ.Iterator.C90_so_far`
* `LJ.Iterator.C91_exact`
* `LJ.Iterator.C91_false`
* `LJ.Iterator.C91_order`
* `LJ.Iterator.C91_partial`
* `LJ.Iterator.C92_bound`
* `LJ.Iterator.C92_false`
* `LJ.Iterator.C92_partial`
* `LJ.Iterator.C92_work`
* `LJ.Output.C122_checked`
* `LJ.Output.C122_handlers`
* `LJ.Output.C122_handlers_partial`
* `LJ.Output.C122_same`
* `LJ.Output.C123_content`
* `LJ.Output.C123_debug`
* `LJ.Output.C123_hidden`
* `LJ.Output.C123_items`
* `LJ.Output.C130_live`
* `LJ.Output.C130_rows`
* `LJ.Output.C151_count`
* `LJ.Output.C151_decimals`
* `LJ.Output.C151_false`
* `LJ.Output.C151_monotone`
* `LJ.Output.C151_partial`
* `LJ.Output.C151_report`
* `LJ.Output.C65_blank_line`
* `LJ.Output.C65_debug`
* `LJ.Output.C65_false`
* `LJ.Output.C65_file_partial`
* `LJ.Output.C65_partial`
* `LJ.Output.C65_pieces`
* `LJ.Output.C65_release_partial`
* `LJ.Output.C66_false`
* `LJ.Output.C66_line_zero`
* `LJ.Output.C66_partial`
* `LJ.Output.C81_error`
* `LJ.Output.C81_false`
* `LJ.Output.C81_found`
* `LJ.Output.C81_partial`
* `LJ.Output.C81_totals`
* `LJ.Output.C82_colours`
* `LJ.Output.C82_distance`
* `LJ.Output.C82_monotone`
* `LJ.Output.C82_range`
* `LJ.Output.C83_info`
* `LJ.Output.C83_items`
* `LJ.Output.C83_made`
* `LJ.Output.C84_live_has_report`
* `LJ.Output.C95_partial`
* `LJ.Output.C96_dangling`
* `LJ.Output.C96_partial`
* `LJ.Output.C96_places`
* `LJ.Paths.C141_name`
* `LJ.Paths.C141_rules`
* `LJ.Paths.C40_exceptions`
* `LJ.Paths.C40_hash`
* `LJ.Paths.C40_letters`
* `LJ.Paths.C40_rotation`
* `LJ.Paths.C40_rotation_any`
* `LJ.Paths.C40_same`
* `LJ.Paths.C41_clean`
* `LJ.Paths.C41_false`
* `LJ.Paths.C41_gz_partial`
* `LJ.Paths.C41_not_utf8`
* `LJ.Paths.C42_valid`
* `LJ.Paths.C43_false`
* `LJ.Paths.C43_never`
* `LJ.Paths.C43_partial`
* `LJ.Paths.C44_false`
* `LJ.Paths.C45_false`
* `LJ.Paths.C46_false`
* `LJ.Paths.C46_partial`
* `LJ.Paths.C77_discover`
* `LJ.Paths.C77_found`
* `LJ.Paths.same_below`
* `LJ.Process.C126_exact`
* `LJ.Process.C126_fails`
* `LJ.Process.C126_marker`
* `LJ.Process.C128_exact`
* `LJ.Process.C128_small`
* `LJ.Process.C131_source`
* `LJ.Process.C133_false`
* `LJ.Process.C133_source`
* `LJ.Process.C135_source`
* `LJ.Process.C25_anomalies`
* `LJ.Process.C25_counts`
* `LJ.Process.C26_any`
* `LJ.Process.C26_windows`
* `LJ.Process.C27_false`
* `LJ.Process.C27_new_end_partial`
* `LJ.Process.C27_partial`
* `LJ.Process.C27_short_partial`
* `LJ.Process.C28_false`
* `LJ.Process.C28_partial`
* `LJ.Process.C28_short_partial`
* `LJ.Process.C29_bounded`
* `LJ.Process.C29_states`
* `LJ.Process.C30_finish`
* `LJ.Process.C30_no_panic`
* `LJ.Process.C30_search`
* `LJ.Process.C31_false`
* `LJ.Process.C31_marker_partial`
* `LJ.Process.C31_nothing_partial`
* `LJ.Process.C31_prefix_partial`
* `LJ.Process.C32_false`
* `LJ.Process.C32_prefix_partial`
* `LJ.Process.C32_skip`
* `LJ.Process.C33_any`
* `LJ.Process.C33_concat`
* `LJ.Process.C33_once`
* `LJ.Process.C34_known`
* `LJ.Process.C34_noop`
* `LJ.Process.C34_search`
* `LJ.Process.C34_self`
* `LJ.Process.C72_before`
* `LJ.Process.C73_unrelated`
* `LJ.Program.C100_bytes`
* `LJ.Program.C100_exact`
* `LJ.Program.C100_lines`
* `LJ.Program.C100_text`
* `LJ.Program.C101_diff`
* `LJ.Program.C101_page`
* `LJ.Program.C101_quiet`
* `LJ.Program.C102_false`
* `LJ.Program.C102_partial`
* `LJ.Program.C103_level`
* `LJ.Program.C103_main`
* `LJ.Program.C103_mode`
* `LJ.Program.C103_plain`
* `LJ.Program.C115_diff`
* `LJ.Program.C115_trained`
* `LJ.Program.C121_files`
* `LJ.Program.C121_groups`
* `LJ.Program.C121_iterator`
* `LJ.Program.C121_pure`
* `LJ.Program.C121_test`
* `LJ.Program.C121_unread`
* `LJ.Program.C124_info`
* `LJ.Program.C124_nothing`
* `LJ.Program.C124_panic`
* `LJ.Program.C124_read`
* `LJ.Program.C124_runs`
* `LJ.Program.C124_status`
* `LJ.Program.C124_unique`
* `LJ.Program.C129_announced`
* `LJ.Program.C129_ok`
* `LJ.Program.C129_train`
* `LJ.Program.C129_written`
* `LJ.Program.C130_diff`
* `LJ.Program.C130_report`
* `LJ.Program.C137_lines`
* `LJ.Program.C137_names`
* `LJ.Program.C137_quiet`
* `LJ.Program.C137_tokens`
* `LJ.Program.C138_diff`
* `LJ.Program.C138_trees`
* `LJ.Program.C97_false`
* `LJ.Program.C97_missing`
* `LJ.Program.C97_partial`
* `LJ.Program.C98_false`
* `LJ.Program.C98_local`
* `LJ.Program.C98_no_source`
* `LJ.Program.C98_partial`
* `LJ.Program.C99_groups`
* `LJ.Program.C99_order`
* `LJ.Python.C87_defined`
* `LJ.Python.C87_dimension`
* `LJ.Python.C87_false`
* `LJ.Python.C87_index`
* `LJ.Python.C87_load`
* `LJ.Python.C87_save`
* `LJ.Python.C87_saved`
* `LJ.Python.C87_search`
* `LJ.Python.C87_search_mat`
* `LJ.Python.isF32_iff`
* `LJ.Python.matOf_rawOf`
* `LJ.Remote.C104_again`
* `LJ.Remote.C104_false`
* `LJ.Remote.C104_partial`
* `LJ.Remote.C105_false`
* `LJ.Remote.C105_partial`
* `LJ.Remote.C106_false`
* `LJ.Remote.C106_partial`
* `LJ.Remote.C112`
* `LJ.Remote.C113_partial`
* `LJ.Remote.C113_transparent_partial`
* `LJ.Remote.C114_again`
* `LJ.Remote.C114_false`
* `LJ.Remote.C114_partial`
* `LJ.Remote.C116_baselines`
* `LJ.Remote.C116_input`
* `LJ.Remote.C116_panic`
* `LJ.Remote.C144_online`
* `LJ.Remote.C145_false`
* `LJ.Remote.C145_orders_partial`
* `LJ.Remote.C145_partial`
* `LJ.Remote.C146_partial`
* `LJ.Remote.C148_compare`
* `LJ.Remote.C148_exact`
* `LJ.Remote.C148_report`
* `LJ.Remote.C148_train`
* `LJ.Remote.C150_accounted`
* `LJ.Remote.C150_compare`
* `LJ.Remote.C150_report`
* `LJ.Remote.C150_sent`
* `LJ.Remote.C150_train`
* `LJ.Remote.C45_listed_partial`
* `LJ.Remote.demo_stable`
* `LJ.Render.C110_empty`
* `LJ.Render.C110_false`
* `LJ.Render.C110_partial`
* `LJ.Render.C111_false`
* `LJ.Render.C111_partial`
* `LJ.Render.C111_table`
* `LJ.Render.C122_false`
* `LJ.Render.C122_partial`
* `LJ.Render.C123_false`
* `LJ.Render.C123_partial`
* `LJ.Render.C94_extension`
* `LJ.Render.C94_false`
* `LJ.Render.C94_html`
* `LJ.Render.C94_made`
* `LJ.Render.C94_page`
* `LJ.Render.C94_partial`
* `LJ.Render.C94_same`
* `LJ.Render.C94_twice`
* `LJ.Render.C95_false`
* `LJ.Render.C95_report`
* `LJ.Render.C96_false`
* `LJ.Render.C96_report`
* `LJ.Report.C120_baseline_partial`
* `LJ.Report.C120_false`
* `LJ.Report.C120_json_false`
* `LJ.Report.C120_open_false`
* `LJ.Report.C120_partial`
* `LJ.Report.C120_train_partial`
* `LJ.Report.C127_report`
* `LJ.Report.C131_false`
* `LJ.Report.C131_marker_false`
* `LJ.Report.C131_partial`
* `LJ.Report.C132_kind`
* `LJ.Report.C133_file_partial`
* `LJ.Report.C133_partial`
* `LJ.Report.C134_known`
* `LJ.Report.C135_report`
* `LJ.Report.C136_more`
* `LJ.Report.C136_same`
* `LJ.Report.C136_split`
* `LJ.Report.C139_equal`
* `LJ.Report.C139_train`
* `LJ.Report.C140_false`
* `LJ.Report.C140_partial`
* `LJ.Report.C142_failures`
* `LJ.Report.C143_false`
* `LJ.Report.C143_partial`
* `LJ.Report.C33_report`
* `LJ.Report.C35_perm`
* `LJ.Report.C37_lines`
* `LJ.Report.C37_logs`
* `LJ.Report.C37_totals`
* `LJ.Report.C38_false`
* `LJ.Report.C38_group`
* `LJ.Report.C38_partial`
* `LJ.Report.C39_model`
* `LJ.Report.C39_report`
* `LJ.Report.C39_train`
* `LJ.Report.C74_false`
* `LJ.Report.C74_index_partial`
* `LJ.Report.C74_partial`
* `LJ.Report.C75_train`
* `LJ.Report.renamed_report`
* `LJ.Report.report_total`
* `LJ.Saved.C119_live`
* `LJ.Saved.C139_file`
* `LJ.Saved.C139_memory`
* `LJ.Saved.C93_memory`
* `LJ.Saved.C93_report`
* `LJ.Saved.C93_runs`
* `LJ.Saved.C93_saves`
* `LJ.Shared.C117_disk_false`
* `LJ.Shared.C117_false`
* `LJ.Shared.C117_own`
* `LJ.Shared.C117_partial`
* `LJ.Shared.C117_race`
* `LJ.Shared.C118_false`
* `LJ.Shared.C118_kept`
* `LJ.Shared.C118_partial`
* `LJ.Tokenizer.C09_only_trimmed_matters`
* `LJ.Tokenizer.C09_recursion_shrinks`
* `LJ.Tokenizer.C09_recursive_equation`
* `LJ.Tokenizer.C09_result_trimmed`
* `LJ.Tokenizer.C09_trim_insensitive`
* `LJ.Tokenizer.C107_rules`
* `LJ.Tokenizer.C10_no_digits`
* `LJ.Tokenizer.C11_error_amplified`
* `LJ.Tokenizer.C11_error_word`
* `LJ.Tokenizer.C12_class_token`
* `LJ.Tokenizer.C12_hex_is_id`
* `LJ.Tokenizer.C12_volatile_equal`
* `LJ.Tokenizer.C13_no_leak`
* `LJ.Tokenizer.C13_value_independent`
* `LJ.Tokenizer.C14_linear`
* `LJ.Tokenizer.C14_no_long_fragment`
* `LJ.Tokenizer.C15_global_filter`
* `LJ.Tokenizer.C16_separators_irrelevant`
* `LJ.Tokenizer.C16_split_exists_unique`
* `LJ.Tokenizer.C16_word_local`
* `LJ.Tokenizer.C71_numbers_irrelevant`
* `LJ.Tokenizer.C71_numbers_total`
* `LJ.Tokenizer.C71_plain_word_kept`
* `LJ.Whole.C108_false`
* `LJ.Whole.C108_partial`
* `LJ.Whole.C120_trees_baseline_partial`
* `LJ.Whole.C120_trees_partial`
* `LJ.Whole.C127_files`
* `LJ.Whole.C127_trees`
* `LJ.Whole.C131_trees_partial`
* `LJ.Whole.C132_trees`
* `LJ.Whole.C133_trees_file_partial`
* `LJ.Whole.C133_trees_partial`
* `LJ.Whole.C134_trees`
* `LJ.Whole.C135_trees`
* `LJ.Whole.C136_trees`
* `LJ.Whole.C136_trees_cut`
* `LJ.Whole.C139_trees`
* `LJ.Whole.C139_trees_equal`
* `LJ.Whole.C140_trees`
* `LJ.Whole.C142_trees`
* `LJ.Whole.C144_replay`
* `LJ.Whole.C88_diff`
* `LJ.Whole.C88_found`
* `LJ.Whole.C88_quiet`
* `LJ.Whole.C88_texts`
* `LJ.Whole.C88_tree`
* `LJ.Zuul.C109_build`
* `LJ.Zuul.C109_builds`
* `LJ.Zuul.C109_element`
* `LJ.Zuul.C109_times`
* `LJ.Zuul.C58`
* `LJ.Zuul.C58_error`
* `LJ.Zuul.C58_found`
* `LJ.Zuul.C58_none`
* `LJ.Zuul.C59_false`
* `LJ.Zuul.C59_partial`
* `LJ.Zuul.C60_changes`
* `LJ.Zuul.C60_false`
* `LJ.Zuul.C60_lookup_false`
* `LJ.Zuul.C60_lookup_ok`
* `LJ.Zuul.C60_lookup_partial`
* `LJ.Zuul.C60_partial`
* `LJ.Zuul.C61`
* `LJ.Zuul.C61_bounds`
* `LJ.Zuul.C61_calendar`
* `LJ.Zuul.C61_days_fit`
* `LJ.Zuul.C61_future`
* `LJ.Zuul.C61_monotone`
* `LJ.Zuul.C62_false`
* `LJ.Zuul.C62_partial`
* `LJ.Zuul.C62_recognised`
* `LJ.Zuul.C62_whitelabel_false`
* `LJ.Zuul.C62_whitelabel_partial`
* `LJ.Zuul.C63_error`
* `LJ.Zuul.C63_exact`
* `LJ.Zuul.C63_false`
* `LJ.Zuul.C63_partial`
* `LJ.Zuul.C63_times`
* `LJ.Zuul.C64_found`
* `LJ.Zuul.C64_optional`
* `LJ.Zuul.C64_unknown`

## Quot.sound, propext

* `LJ.Cache.C55_names`
* `LJ.Cache.C57_dropped`
* `LJ.Cli.C67_ambiguous`
* `LJ.Cli.C67_error`
* `LJ.Cli.C67_history`
* `LJ.Cli.C67_model`
* `LJ.Cli.C67_saved`
* `LJ.Cli.C67_train`
* `LJ.Cli.C85_load`
* `LJ.Cli.C85_never_wrong`
* `LJ.Cli.C85_partial`
* `LJ.Cli.C86_crash`
* `LJ.Cli.C89_page`
* `LJ.Cli.C89_status`
* `LJ.Dataset.C68_blank`
* `LJ.Paths.C141_parts`
* `LJ.Paths.C44_partial`
* `LJ.Paths.C45_local`
* `LJ.Paths.C45_panic`
* `LJ.Paths.C45_remote_partial`
* `LJ.Paths.C45_root`
* `LJ.Paths.C46_contents`
* `LJ.Paths.C76_listing`
* `LJ.Process.C24_chunks`
* `LJ.Process.C24_once`
* `LJ.Report.C134_files`
* `LJ.Report.C35_fail`
* `LJ.Report.C35_groups`
* `LJ.Report.C35_once`
* `LJ.Report.C36_lookup`
* `LJ.Report.C36_order`
* `LJ.Report.C75_tokens`
* `LJ.Zuul.C109_last`
* `LJ.Zuul.C64_error`
* `LJ.Zuul.C64_missing`

## propext

* `LJ.Cache.C52_no_answer`
* `LJ.Cache.C55_directories`
* `LJ.Cache.C57_uncached`
* `LJ.Cache.C79_partial`
* `LJ.Cli.C67_kept_partial`
* `LJ.Cli.C67_only`
* `LJ.Cli.C67_train_error`
* `LJ.Cli.C85_false`
* `LJ.Iterator.C133_lines`
* `LJ.Iterator.C136_cut`
* `LJ.Render.C94_no_name`
* `LJ.Report.C140_exact`
* `LJ.Zuul.C64`
