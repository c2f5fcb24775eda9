{
 "claims": [
  {
   "property": "C01",
   "status": "proved",
   "theorems": [
    "Apop.Names.C01_add_names",
    "Apop.Names.C01_add_names_null_refuted",
    "Apop.Names.C01_add_names_unended_refuted",
    "Apop.Names.C01_adds_append",
    "Apop.Names.C01_adds_return",
    "Apop.Names.C01_null_is_noop"
   ],
   "note": ""
  },
  {
   "property": "C02",
   "status": "proved",
   "theorems": [
    "Apop.Names.C02_find_sound",
    "Apop.Names.C02_find_complete",
    "Apop.Names.C02_reachable_good",
    "Apop.Names.C02_find_preference",
    "Apop.Names.C02_find_null"
   ],
   "note": "The preference clause is stated for structures reachable by the name operations, whose stored hashes are right."
  },
  {
   "property": "C03",
   "status": "proved",
   "theorems": [
    "Apop.Names.C03_stack_appends",
    "Apop.Names.C03_stack_vector",
    "Apop.Names.C03_stack_noop",
    "Apop.Names.C03_stack_unknown",
    "Apop.Names.C03_stack_defaults",
    "Apop.Names.C03_stack_self",
    "Apop.Names.C03_stack_self_vector_ub",
    "Apop.Names.C03_copy",
    "Apop.Names.C03_copy_lookup"
   ],
   "note": "Covers the whole statement. Findings, proved: self stack with 'v' (C03_stack_self_vector_ub), \"(null)\" title (in C03_copy)."
  },
  {
   "property": "C04",
   "status": "proved",
   "theorems": [
    "Apop.Page.C04_copy",
    "Apop.Page.C04_copy_loses_vector_name",
    "Apop.Page.C04_copy_null_title",
    "Apop.Page.C04_copy_error_on_later_page",
    "Apop.Page.C04_copy_error_with_text"
   ],
   "note": "Covers the whole statement; the deviations from a full copy are theorems (C04_copy_loses_vector_name, C04_copy_null_title), and so is what happens to sets with error flags."
  },
  {
   "property": "C05",
   "status": "proved",
   "theorems": [
    "Apop.Pages.C05_free_terminates",
    "Apop.Pages.C05_free_self_loop",
    "Apop.Pages.C05_free_longer_cycle_diverges",
    "Apop.Pages.C05_copy_longer_cycle_diverges",
    "Apop.Pages.C05_copy_self_loop",
    "Apop.Pages.C05_copy_terminates"
   ],
   "note": "Covers the whole statement; the missing detection of longer cycles is proved too (C05_*_longer_cycle_diverges)."
  },
  {
   "property": "C06",
   "status": "proved",
   "theorems": [
    "Apop.Page.C06_alloc_shape",
    "Apop.Page.C06_calloc_zero",
    "Apop.Page.C06_narrowing"
   ],
   "note": "Sizes beyond INT_MAX are narrowed (C06_narrowing shows the effect)."
  },
  {
   "property": "C07",
   "status": "proved",
   "theorems": [
    "Apop.Realloc.C07_matrix_realloc",
    "Apop.Realloc.C07_zero_height_ub",
    "Apop.Realloc.C07_views_refused",
    "Apop.Realloc.C07_null"
   ],
   "note": "Covers the whole statement; h=0 is C07_zero_height_ub."
  },
  {
   "property": "C08",
   "status": "proved",
   "theorems": [
    "Apop.Realloc.C08_vector_realloc",
    "Apop.Realloc.C08_views_refused",
    "Apop.Realloc.C08_null"
   ],
   "note": ""
  },
  {
   "property": "C09",
   "status": "proved",
   "theorems": [
    "Apop.Text.C09_text_alloc",
    "Apop.Text.C09_grow_and_narrow_ub",
    "Apop.Text.C09_histories"
   ],
   "note": "Covers the whole statement, including the overflow (C09_grow_and_narrow_ub)."
  },
  {
   "property": "C10",
   "status": "proved",
   "theorems": [
    "Apop.Text.C10_text_set",
    "Apop.Text.C10_huge_position_ub"
   ],
   "note": "Covers the whole statement, including C10_huge_position_ub."
  },
  {
   "property": "C11",
   "status": "proved",
   "theorems": [
    "Apop.Access.C11_get_body",
    "Apop.Access.C11_set_body",
    "Apop.Access.C11_get_set",
    "Apop.Access.C11_not_found",
    "Apop.Access.C11_by_number",
    "Apop.Access.C11_by_name",
    "Apop.Access.C11_defaults",
    "Apop.Access.C11_set_missing_part",
    "Apop.Access.C11_out_of_bounds_returns_zero"
   ],
   "note": "Covers the whole statement; docs promise -1 for out of range positions (C11_out_of_bounds_returns_zero)."
  },
  {
   "property": "C12",
   "status": "proved",
   "theorems": [
    "Apop.Stack.C12_vector_stack",
    "Apop.Stack.C12_matrix_stack_rows",
    "Apop.Stack.C12_matrix_stack_cols",
    "Apop.Stack.C12_stack_rows",
    "Apop.Stack.C12_row_names_aligned",
    "Apop.Stack.C12_stack_null",
    "Apop.Stack.C12_width_mismatch_drops_matrix",
    "Apop.Stack.C12_text_mismatch",
    "Apop.Stack.C12_null_names_ub",
    "Apop.Stack.C12_stack_cols",
    "Apop.Stack.C12_vector_name_misplaced",
    "Apop.Stack.C12_two_by_two",
    "Apop.Stack.C12_two_by_two_refuted"
   ],
   "note": "Covers the whole statement. Deviations from the documentation, proved: widths that differ silently drop the matrix (no 'd'), a first set without names dereferences NULL, column names are misplaced when both sets have vectors (C12_width_mismatch_drops_matrix, C12_null_names_ub, C12_vector_name_misplaced)."
  },
  {
   "property": "C13",
   "status": "proved",
   "theorems": [
    "Apop.Stack.C13_split_rows",
    "Apop.Stack.C13_stack_split_rows",
    "Apop.Stack.C13_split_rows_ends",
    "Apop.Stack.C13_vector_only_overrun",
    "Apop.Stack.C13_split_cols",
    "Apop.Stack.C13_split_cols_zero",
    "Apop.Stack.C13_split_cols_loses_text"
   ],
   "note": "Covers the whole statement. Deviations proved: vector-only sets overrun (C13_vector_only_overrun), column splits lose text (C13_split_cols_loses_text)."
  },
  {
   "property": "C14",
   "status": "proved",
   "theorems": [
    "Apop.Rows.C14_rm_rows",
    "Apop.Rows.C14_nothing_given",
    "Apop.Rows.C14_short_names_stale",
    "Apop.Rows.C14_ragged_stale"
   ],
   "note": "Covers the whole statement. Outside of the precondition, proved: fewer names than rows leave stale names, ragged parts leave stale rows (C14_short_names_stale, C14_ragged_stale)."
  },
  {
   "property": "C15",
   "status": "proved",
   "theorems": [
    "Apop.Rows.C15_rm_columns",
    "Apop.Rows.C15_short_drop_ub",
    "Apop.Rows.C15_prune",
    "Apop.Rows.C15_prune_unnamed_ub"
   ],
   "note": "Covers the whole statement; shorter arrays and unnamed columns are read out of bounds (C15_short_drop_ub, C15_prune_unnamed_ub)."
  },
  {
   "property": "C16",
   "status": "proved",
   "theorems": [
    "Apop.Transpose.C16_in_place",
    "Apop.Transpose.C16_twice",
    "Apop.Transpose.C16_copy_matrix",
    "Apop.Transpose.C16_copy_text",
    "Apop.Transpose.C16_in_place_lookup_ub",
    "Apop.Transpose.C16_copy_percent",
    "Apop.Transpose.C16_text_names_backwards",
    "Apop.Transpose.C16_vector_only"
   ],
   "note": "Covers the whole statement. Deviations proved: the in-place version leaves stale name hashes (lookup can be undefined), % in text is used as a format, text names go the wrong way, vector-only sets are lost (C16_in_place_lookup_ub, C16_copy_percent, C16_text_names_backwards, C16_vector_only)."
  },
  {
   "property": "C17",
   "status": "proved",
   "theorems": [
    "Apop.Pages.C17_get_page",
    "Apop.Pages.C17_get_page_defaults",
    "Apop.Pages.C17_add_page",
    "Apop.Pages.C17_add_get",
    "Apop.Pages.C17_rm_page",
    "Apop.Pages.C17_rm_untitled_ub"
   ],
   "note": "Covers the whole statement; an untitled page before the match makes rm_page compare NULL (C17_rm_untitled_ub)."
  },
  {
   "property": "C18",
   "status": "proved",
   "theorems": [
    "Apop.Sort.C18_rearrange"
   ],
   "note": "Proved for every rectangular set and every permutation, including termination and absence of undefined behaviour."
  },
  {
   "property": "C19",
   "status": "proved",
   "theorems": [
    "Apop.Sort.C19_one_column",
    "Apop.Sort.C19_lexicographic",
    "Apop.Sort.C19_default",
    "Apop.Sort.C19_order_by_rank",
    "Apop.Sort.C19_tied_ranks_refuted",
    "Apop.Sort.C19_row_names_refuted",
    "Apop.Sort.C19_mixed_case_refuted",
    "Apop.Sort.C19_no_columns_refuted"
   ],
   "note": "Covers the whole statement. Outside: within ties row names do not move with their rows, mixed-case ties are not sorted further, tied ranks drop a column, a set without columns dereferences NULL (C19_row_names_refuted, C19_mixed_case_refuted, C19_tied_ranks_refuted, C19_no_columns_refuted)."
  },
  {
   "property": "C20",
   "status": "partial",
   "theorems": [
    "Apop.Sort.C20_descending_partial",
    "Apop.Sort.C20_descending_refuted"
   ],
   "note": "First column descending, ties ascending: proved. The documented all-columns descending order is refuted (C20_descending_refuted)."
  },
  {
   "property": "C21",
   "status": "proved",
   "theorems": [
    "Apop.Pack.C21_pack",
    "Apop.Pack.C21_roundtrip",
    "Apop.Pack.C21_roundtrip_info",
    "Apop.Pack.C21_pack_first_page",
    "Apop.Pack.C21_pack_wrong_size",
    "Apop.Pack.C21_first_info_refuted",
    "Apop.Pack.C21_info_pages_refuted",
    "Apop.Pack.C21_text_page_last_refuted",
    "Apop.Pack.C21_capital_N_refuted"
   ],
   "note": "Covers the whole statement. Outside of the preconditions the code fails, proved: C21_first_info_refuted, C21_info_pages_refuted, C21_text_page_last_refuted, C21_capital_N_refuted."
  },
  {
   "property": "C22",
   "status": "proved",
   "theorems": [
    "Apop.Conv.C22_compress",
    "Apop.Conv.C22_bins",
    "Apop.Conv.C22_min_bins_ignored",
    "Apop.Conv.C22_expand",
    "Apop.Conv.C22_roundtrip",
    "Apop.Conv.C22_expand_vector_refuted"
   ],
   "note": "Counts, bin number and round trip for every data set. Findings: min_bins is ignored when both a vector and a matrix are given (C22_min_bins_ignored); expanding a set with a vector leaves elements unwritten (C22_expand_vector_refuted)."
  },
  {
   "property": "C23",
   "status": "proved",
   "theorems": [
    "Apop.Rows.C23_listwise",
    "Apop.Rows.C23_idempotent",
    "Apop.Rows.C23_long_weights_ub"
   ],
   "note": "Covers the whole statement; weights longer than the data with a NaN write out of bounds (C23_long_weights_ub)."
  },
  {
   "property": "C24",
   "status": "proved",
   "theorems": [
    "Apop.Settings.C24_map",
    "Apop.Settings.C24_add_then_get",
    "Apop.Settings.C24_hash_collision_refuted",
    "Apop.Settings.C24_copy_missing"
   ],
   "note": "Covers the whole statement. Names with equal hashes are one group (C24_hash_collision_refuted); copying from a model without settings does not set 's' (C24_copy_missing)."
  },
  {
   "property": "C25",
   "status": "partial",
   "theorems": [
    "Apop.Vtable.C25_map_partial",
    "Apop.Vtable.C25_adds",
    "Apop.Vtable.C25_drop_overread_refuted"
   ],
   "note": "Proved for every history over table names that hash differently and not to zero, taking the entry read past the block to be arbitrary; that read is undefined behaviour and happens on every removal right after a registration (C25_drop_overread_refuted). One thread only."
  },
  {
   "property": "C26",
   "status": "proved",
   "theorems": [
    "Apop.Asst.C26_paste",
    "Apop.Asst.C26_join",
    "Apop.Asst.C26_prune_inverted_refuted",
    "Apop.Asst.C26_prune_separators_refuted"
   ],
   "note": "Covers the whole statement. Against the documentation: C26_prune_inverted_refuted, C26_prune_separators_refuted."
  },
  {
   "property": "C27",
   "status": "proved",
   "theorems": [
    "Apop.Asst.C27_history",
    "Apop.Asst.C27_threads_refuted",
    "Apop.Asst.C27_threads_short_sums"
   ],
   "note": "Covers the whole statement. With threads the last read is outside the critical section and can be out of bounds (C27_threads_refuted); interleavings that need no longer sums are right (C27_threads_short_sums)."
  },
  {
   "property": "C28",
   "status": "proved",
   "theorems": [
    "Apop.Asst.C28_columns",
    "Apop.Asst.C28_columns_total",
    "Apop.Asst.C28_matches",
    "Apop.Asst.C28_no_overlap",
    "Apop.Asst.C28_empty_match_diverges",
    "Apop.Asst.C28_nonterminating_refuted",
    "Apop.Asst.C28_no_parens",
    "Apop.Asst.C28_plain_count_refuted"
   ],
   "note": "Covers the whole statement. Proved too: C28_empty_match_diverges, C28_nonterminating_refuted; without substrings the count is at most 1 (C28_plain_count_refuted)."
  },
  {
   "property": "C29",
   "status": "proved",
   "theorems": [
    "Apop.Asst.C29_same_and_different",
    "Apop.Asst.C29_seeds",
    "Apop.Asst.C29_minus_one_refuted",
    "Apop.Asst.C29_negative_ub",
    "Apop.Asst.C29_race_refuted",
    "Apop.Asst.C29_race_free"
   ],
   "note": "Covers the whole statement; rng_seed taken as unbounded. Against the documentation: -1 always means generator 0 (wrong macro name, C29_minus_one_refuted); the last line races with reallocation (C29_race_refuted; not once the largest number was asked for, C29_race_free)."
  },
  {
   "property": "C30",
   "status": "proved",
   "theorems": [
    "Apop.Parse.C30_line_fields",
    "Apop.Parse.C30_round_trip",
    "Apop.Parse.C30_single_empty_lost",
    "Apop.Parse.C30_white_empty_lost",
    "Apop.Parse.C30_white_fields",
    "Apop.Parse.C30_nul_delimits"
   ],
   "note": "Covers the whole statement. Outside: one empty field alone is a blank line, white delimiters lose empty fields, NUL delimits (C30_single_empty_lost, C30_white_empty_lost, C30_nul_delimits)."
  },
  {
   "property": "C31",
   "status": "proved",
   "theorems": [
    "Apop.Parse.C31_line_in_bounds",
    "Apop.Parse.C31_fixed_in_bounds"
   ],
   "note": "Every byte stream, buffer size, delimiter list without byte 255 (not ASCII); fixed width for lines up to the last end (beyond it: C34_long_line_ub)."
  },
  {
   "property": "C32",
   "status": "proved",
   "theorems": [
    "Apop.Parse.C32_db_only_file",
    "Apop.Parse.C32_no_data_ub",
    "Apop.Parse.C32_empty_ub",
    "Apop.Parse.C32_header_only_ub",
    "Apop.Parse.C32_single_unterminated_ub",
    "Apop.Parse.C32_last_comment_ub",
    "Apop.Parse.C32_byte255_ends",
    "Apop.Parse.C32_after_end_ub",
    "Apop.Parse.C32_after_end_stale"
   ],
   "note": "Covers the whole statement: the second half says where the property one would want (no byte outside the file is ever interpreted) fails."
  },
  {
   "property": "C33",
   "status": "proved",
   "theorems": [
    "Apop.Parse.C33_records",
    "Apop.Parse.C33_records_nohead",
    "Apop.Parse.C33_return_off",
    "Apop.Parse.C33_last_line_dropped"
   ],
   "note": "Covers the whole statement. The documentation promises the number of records; C33_return_off, C33_last_line_dropped."
  },
  {
   "property": "C34",
   "status": "proved",
   "theorems": [
    "Apop.Parse.C34_fixed",
    "Apop.Parse.C34_split_flatten",
    "Apop.Parse.C34_long_line_ub"
   ],
   "note": "Covers the whole statement, including C34_long_line_ub."
  },
  {
   "property": "C35",
   "status": "proved",
   "theorems": [
    "Apop.Parse.C35_missing",
    "Apop.Parse.C35_literal",
    "Apop.Parse.C35_prepared_text",
    "Apop.Parse.C35_apostrophe_no_literal",
    "Apop.Parse.C35_both_quotes_broken",
    "Apop.Parse.C35_nan_text",
    "Apop.Parse.C35_number"
   ],
   "note": "Covers the whole statement, including C35_apostrophe_no_literal, C35_both_quotes_broken. strtod is a parameter."
  },
  {
   "property": "C36",
   "status": "proved",
   "theorems": [
    "Apop.Conv.C36_fill",
    "Apop.Conv.C36_too_few_ub",
    "Apop.Conv.C36_vector_fill",
    "Apop.Conv.C36_text_fill",
    "Apop.Conv.C36_text_too_few_refuted",
    "Apop.Conv.C36_text_one_too_few",
    "Apop.Conv.C36_text_percent_refuted"
   ],
   "note": "Covers the whole statement. Text with a percent sign, or two strings too few, is undefined (C36_text_percent_refuted, C36_text_too_few_refuted)."
  },
  {
   "property": "C37",
   "status": "proved",
   "theorems": [
    "Apop.Conv.C37_crosstab",
    "Apop.Conv.C37_search_diverges"
   ],
   "note": "For every record list whose keys are among the distinct keys, which the queries guarantee."
  },
  {
   "property": "C38",
   "status": "partial",
   "theorems": [
    "Apop.Conv.C38_names_never_fit_refuted",
    "Apop.Conv.C38_all_names_partial"
   ],
   "note": "The property is false whenever a name is made up, for every table size (C38_names_never_fit_refuted); it holds only when no name has to be made up."
  },
  {
   "property": "C39",
   "status": "proved",
   "theorems": [
    "Apop.Conv.C39_vector_to_matrix",
    "Apop.Conv.C39_array_to_vector"
   ],
   "note": "Finding: with no size given apop_array_to_vector copies one element (sizeof of a pointer)."
  },
  {
   "property": "C40",
   "status": "proved",
   "theorems": [
    "Apop.Page.C40_names",
    "Apop.Page.C40_chain",
    "Apop.Page.C40_chain_stops",
    "Apop.Page.C40_memcpy",
    "Apop.Page.C40_memcpy_errors",
    "Apop.Page.C40_text_overflow",
    "Apop.Page.C40_text_overflow_rows"
   ],
   "note": "Covers the whole statement, including the overflow (C40_text_overflow, C40_text_overflow_rows)."
  },
  {
   "property": "C41",
   "status": "proved",
   "theorems": [
    "Apop.Views.C41_find_row",
    "Apop.Views.C41_find_col",
    "Apop.Views.C41_row_vector",
    "Apop.Views.C41_col_vector",
    "Apop.Views.C41_submatrix",
    "Apop.Views.C41_subvector",
    "Apop.Views.C41_negative_length_accepted",
    "Apop.Views.C41_write_through",
    "Apop.Views.C41_rows_view",
    "Apop.Views.C41_row_view",
    "Apop.Views.C41_rows_view_one_name",
    "Apop.Views.C41_rows_out_of_range",
    "Apop.Views.C41_cols_view",
    "Apop.Views.C41_write_rows"
   ],
   "note": "Covers the whole statement. Against the documentation: C41_rows_view_one_name, C41_rows_out_of_range, C41_negative_length_accepted."
  },
  {
   "property": "C42",
   "status": "partial",
   "theorems": [
    "Apop.Asst.C42_always_E",
    "Apop.Asst.C42_draws_null",
    "Apop.Asst.C42_draws_dsize_zero",
    "Apop.Asst.C42_draws_narrow"
   ],
   "note": "Refuted: C42_always_E, for every code; apop_model_draws in particular (C42_draws_null, _dsize_zero, _narrow)."
  },
  {
   "property": "C43",
   "status": "proved",
   "theorems": [
    "Apop.Access.C43_named_elements_aligned",
    "Apop.Access.C43_named_lookup",
    "Apop.Access.C43_null_name_overwrites"
   ],
   "note": "NULL names overwrite the last element (C43_null_name_overwrites)."
  },
  {
   "property": "C44",
   "status": "proved",
   "theorems": [
    "Apop.Settings.C44_model_copy_settings",
    "Apop.Settings.C44_long_name_refuted",
    "Apop.Settings.C44_model_free"
   ],
   "note": "Covers the whole statement; longer names make the copy lose the group and set 's' (C44_long_name_refuted)."
  },
  {
   "property": "C45",
   "status": "proved",
   "theorems": [
    "Apop.Parse.C45_matrix",
    "Apop.Parse.C45_matrix_nohead",
    "Apop.Parse.C45_short_line_unwritten",
    "Apop.Parse.C45_long_line_extra_row",
    "Apop.Parse.C45_few_names_ub",
    "Apop.Parse.C45_only_line_unterminated_ub"
   ],
   "note": "Covers the whole statement. Short lines leave unwritten cells, long ones add an unwritten row, few header names read out of bounds, header + one unterminated line reads past the end (C45_*). strtod is a parameter."
  },
  {
   "property": "C46",
   "status": "proved",
   "theorems": [
    "Apop.Map.C46_new",
    "Apop.Map.C46_inplace",
    "Apop.Map.C46_ends",
    "Apop.Map.C46_m_of_vector_unwritten",
    "Apop.Map.C46_scalar_on_rows",
    "Apop.Map.C46_void",
    "Apop.Map.C46_vector_map",
    "Apop.Map.C46_void_pages_crash",
    "Apop.Map.C46_pages_inplace"
   ],
   "note": "Sets with nonempty parts (C46_new, C46_inplace, C46_pages_inplace, C46_ends). Outside of the stated precondition: C46_m_of_vector_unwritten; inplace='v' with pages crashes (C46_void_pages_crash)."
  },
  {
   "property": "C47",
   "status": "partial",
   "theorems": [
    "Apop.Map.C47_vector_index_partial",
    "Apop.Map.C47_matrix_index",
    "Apop.Map.C47_index_depends_on_shape"
   ],
   "note": "True for vectors; for matrices the index is the column if rows <= columns, else the row (C47_matrix_index), so the documented claim fails (C47_index_depends_on_shape)."
  },
  {
   "property": "C48",
   "status": "proved",
   "theorems": [
    "Apop.Map.C48_rows",
    "Apop.Map.C48_columns",
    "Apop.Map.C48_rows_inplace",
    "Apop.Map.C48_columns_inplace_overrun",
    "Apop.Map.C48_no_matrix",
    "Apop.Map.C48_row_view",
    "Apop.Map.C48_row_sets",
    "Apop.Map.C48_row_sets_input",
    "Apop.Map.C48_row_sets_inplace",
    "Apop.Map.C48_row_sets_inplace_no_vector"
   ],
   "note": "Covers the whole statement, including C48_columns_inplace_overrun, C48_row_sets_inplace_no_vector."
  },
  {
   "property": "C49",
   "status": "proved",
   "theorems": [
    "Apop.Map.C49_numbers",
    "Apop.Map.C49_rows",
    "Apop.Map.C49_pages",
    "Apop.Map.C49_null",
    "Apop.Map.C49_vector_only_garbage",
    "Apop.Map.C49_scalar_on_rows_zero"
   ],
   "note": "Covers the whole statement; false for a set with a vector only and a vector function (C49_vector_only_garbage)."
  },
  {
   "property": "C50",
   "status": "proved",
   "theorems": [
    "Apop.Asst.C50_row",
    "Apop.Asst.C50_distinct",
    "Apop.Asst.C50_error",
    "Apop.Asst.C50_error_iff",
    "Apop.Asst.C50_new",
    "Apop.Asst.C50_given"
   ],
   "note": "Schedules at the grain of draws: a generator is used only by its own thread."
  },
  {
   "property": "C51",
   "status": "proved",
   "theorems": [
    "Apop.Stats.C51_sum",
    "Apop.Stats.C51_matrix_sum",
    "Apop.Stats.C51_weighted",
    "Apop.Stats.C51_mean",
    "Apop.Stats.C51_replicates",
    "Apop.Stats.C51_scale",
    "Apop.Stats.C51_matrix_mean"
   ],
   "note": "Proved in exact arithmetic over every (ordered) field or the reals; rounding of double/long double is not modelled."
  },
  {
   "property": "C52",
   "status": "proved",
   "theorems": [
    "Apop.Stats.C52_var",
    "Apop.Stats.C52_var_one",
    "Apop.Stats.C52_var_replicates",
    "Apop.Stats.C52_cov",
    "Apop.Stats.C52_cov_replicates",
    "Apop.Stats.C52_cov_comm",
    "Apop.Stats.C52_cov_self"
   ],
   "note": "Proved in exact arithmetic over every (ordered) field or the reals; rounding of double/long double is not modelled."
  },
  {
   "property": "C53",
   "status": "proved",
   "theorems": [
    "Apop.Stats.C53_pop",
    "Apop.Stats.C53_replicates",
    "Apop.Stats.C53_matrix_var"
   ],
   "note": "Proved in exact arithmetic over every (ordered) field or the reals; rounding of double/long double is not modelled."
  },
  {
   "property": "C54",
   "status": "proved",
   "theorems": [
    "Apop.Stats.C54_var",
    "Apop.Stats.C54_skew"
   ],
   "note": "Proved in exact arithmetic over every (ordered) field or the reals; rounding of double/long double is not modelled."
  },
  {
   "property": "C55",
   "status": "proved",
   "theorems": [
    "Apop.Stats.C55_total",
    "Apop.Stats.C55_monotone",
    "Apop.Stats.C55_ends",
    "Apop.Stats.C55_up",
    "Apop.Stats.C55_down",
    "Apop.Stats.C55_average_not_below",
    "Apop.Stats.C55_above_literal",
    "Apop.Stats.C55_empty"
   ],
   "note": "Proved in exact arithmetic. The documented claim for rounding 'a' fails (C55_average_not_below), and the literal doc text for 'd' at 100 (C55_above_literal); an empty vector is not caught (C55_empty)."
  },
  {
   "property": "C56",
   "status": "partial",
   "theorems": [
    "Apop.Stats.C56_var",
    "Apop.Stats.C56_wrong",
    "Apop.Stats.C56_shift",
    "Apop.Stats.C56_moments"
   ],
   "note": "Refuted: the code's value for unit-sum weights is derived for all inputs (C56_var, C56_moments) and shown to differ from the documented one (C56_wrong) and to change when data are shifted (C56_shift)."
  },
  {
   "property": "C57",
   "status": "proved",
   "theorems": [
    "Apop.Stats.C57_history",
    "Apop.Stats.C57_values",
    "Apop.Stats.C57_lengths",
    "Apop.Stats.C57_metric_Lp",
    "Apop.Stats.C57_metric_euclid",
    "Apop.Stats.C57_metric_manhattan",
    "Apop.Stats.C57_metric_discrete",
    "Apop.Stats.C57_metric_sup"
   ],
   "note": "Proved in exact arithmetic over every (ordered) field or the reals; rounding of double/long double is not modelled."
  },
  {
   "property": "C58",
   "status": "partial",
   "theorems": [
    "Apop.Stats.C58_biased",
    "Apop.Stats.C58_values"
   ],
   "note": "Refuted by C58_biased."
  },
  {
   "property": "C59",
   "status": "proved",
   "theorems": [
    "Apop.Stats.C59_out",
    "Apop.Stats.C59_sum_one",
    "Apop.Stats.C59_sum_zero",
    "Apop.Stats.C59_range",
    "Apop.Stats.C59_range_constant",
    "Apop.Stats.C59_mean_zero",
    "Apop.Stats.C59_standard",
    "Apop.Stats.C59_standard_constant"
   ],
   "note": "exact arithmetic over the reals; no floating-point rounding"
  },
  {
   "property": "C60",
   "status": "proved",
   "theorems": [
    "Apop.Stats.C60_cov_cells",
    "Apop.Stats.C60_cov_symm",
    "Apop.Stats.C60_cov_psd",
    "Apop.Stats.C60_correlation",
    "Apop.Stats.C60_constant_nan"
   ],
   "note": "exact arithmetic over the reals; no floating-point rounding"
  },
  {
   "property": "C61",
   "status": "proved",
   "theorems": [
    "Apop.Stats.C61_value",
    "Apop.Stats.C61_empty",
    "Apop.Stats.C61_negative",
    "Apop.Stats.C61_negative_zero_sum",
    "Apop.Stats.C61_scale",
    "Apop.Stats.C61_perm",
    "Apop.Stats.C61_bounds",
    "Apop.Stats.C61_uniform"
   ],
   "note": "exact arithmetic over the reals; no floating-point rounding"
  },
  {
   "property": "C62",
   "status": "proved",
   "theorems": [
    "Apop.Pmf.C62_equal",
    "Apop.Pmf.C62_compress",
    "Apop.Pmf.C62_rows",
    "Apop.Pmf.C62_counts",
    "Apop.Pmf.C62_total",
    "Apop.Pmf.C62_idempotent"
   ],
   "note": "exact arithmetic over the reals"
  },
  {
   "property": "C63",
   "status": "proved",
   "theorems": [
    "Apop.Pmf.C63_cmf",
    "Apop.Pmf.C63_row",
    "Apop.Pmf.C63_interval",
    "Apop.Pmf.C63_ends",
    "Apop.Pmf.C63_zero_draw",
    "Apop.Pmf.C63_written",
    "Apop.Pmf.C63_vector_and_matrix"
   ],
   "note": "exact arithmetic over the reals"
  },
  {
   "property": "C64",
   "status": "partial",
   "theorems": [
    "Apop.Pmf.C64_in_range",
    "Apop.Pmf.C64_last_never",
    "Apop.Pmf.C64_others"
   ],
   "note": "refuted: last row never drawn; what holds (rows in range, other rows equiprobable) is proved"
  },
  {
   "property": "C65",
   "status": "proved",
   "theorems": [
    "Apop.Pmf.C65_prob",
    "Apop.Pmf.C65_compressed",
    "Apop.Pmf.C65_sum_one",
    "Apop.Pmf.C65_repeated"
   ],
   "note": "exact arithmetic over the reals"
  },
  {
   "property": "C66",
   "status": "partial",
   "theorems": [
    "Apop.Pmf.C66_weighted",
    "Apop.Pmf.C66_above_one",
    "Apop.Pmf.C66_unweighted",
    "Apop.Pmf.C66_absent",
    "Apop.Pmf.C66_first"
   ],
   "note": "refuted by theorems giving the value returned; right only for absent points and the first weighted row"
  },
  {
   "property": "C67",
   "status": "proved",
   "theorems": [
    "Apop.Pmf.C67_value",
    "Apop.Pmf.C67_nonneg",
    "Apop.Pmf.C67_zero_iff",
    "Apop.Pmf.C67_unsynced_nan"
   ],
   "note": "exact arithmetic over the reals"
  },
  {
   "property": "C68",
   "status": "proved",
   "theorems": [
    "Apop.Cache.C68_safe",
    "Apop.Cache.C68_leak"
   ],
   "note": "all histories of init, copy, use, free; a leak is shown separately"
  },
  {
   "property": "C69",
   "status": "partial",
   "theorems": [
    "Apop.Pmf.C69_fresh",
    "Apop.Pmf.C69_stale",
    "Apop.Pmf.C69_impossible_row",
    "Apop.Pmf.C69_overread"
   ],
   "note": "refuted: stale cumulative mass after a draw; proved for models not drawn from"
  },
  {
   "property": "C70",
   "status": "proved",
   "theorems": [
    "Apop.Mcmc.C70_chain"
   ],
   "note": "for every stream of proposals and uniforms; exact arithmetic"
  },
  {
   "property": "C71",
   "status": "proved",
   "theorems": [
    "Apop.Mcmc.C71_rows",
    "Apop.Mcmc.C71_overrun",
    "Apop.Mcmc.C71_default_ten"
   ],
   "note": "whole-period burn-in; C71_overrun shows the defect otherwise"
  },
  {
   "property": "C72",
   "status": "proved",
   "theorems": [
    "Apop.Mcmc.C72_accept",
    "Apop.Mcmc.C72_kernel",
    "Apop.Mcmc.C72_balance",
    "Apop.Mcmc.C72_stationary",
    "Apop.Mcmc.C72_general_total",
    "Apop.Mcmc.C72_general_stationary",
    "Apop.Mcmc.C72_block_stationary",
    "Apop.Mcmc.C72_normal",
    "Apop.Mcmc.C72_normal_stationary"
   ],
   "note": "finite state space, no adaptation, no constraint"
  },
  {
   "property": "C73",
   "status": "proved",
   "theorems": [
    "Apop.Mcmc.C73_blocks",
    "Apop.Mcmc.C73_info_page_refuted"
   ],
   "note": "no info pages; C73_info_page_refuted shows why"
  },
  {
   "property": "C74",
   "status": "proved",
   "theorems": [
    "Apop.Dist.C74_normal",
    "Apop.Dist.C74_lognormal",
    "Apop.Dist.C74_exponential",
    "Apop.Dist.C74_gamma",
    "Apop.Dist.C74_beta",
    "Apop.Dist.C74_bernoulli",
    "Apop.Dist.C74_poisson",
    "Apop.Dist.C74_poisson_outside",
    "Apop.Dist.C74_zipf",
    "Apop.Dist.C74_yule",
    "Apop.Dist.C74_t",
    "Apop.Dist.C74_uniform",
    "Apop.Dist.C74_arrangement",
    "Apop.Dist.C74_beta_outside_refuted",
    "Apop.Dist.C74_gamma_zero_refuted",
    "Apop.Dist.C74_exponential_negative_refuted"
   ],
   "note": "proved as stated; the exclusions in the statement are sharp: theorems named _refuted give the counterexamples"
  },
  {
   "property": "C75",
   "status": "proved",
   "theorems": [
    "Apop.Dist.C75_normal",
    "Apop.Dist.C75_lognormal",
    "Apop.Dist.C75_exponential",
    "Apop.Dist.C75_gamma",
    "Apop.Dist.C75_beta",
    "Apop.Dist.C75_yule",
    "Apop.Dist.C75_poisson",
    "Apop.Dist.C75_poisson_vector_refuted",
    "Apop.Dist.C75_gamma_zero_refuted"
   ],
   "note": "proved as stated; the exclusions in the statement are sharp: theorems named _refuted give the counterexamples"
  },
  {
   "property": "C76",
   "status": "proved",
   "theorems": [
    "Apop.Dist.C76_exponential",
    "Apop.Dist.C76_exponential_both_refuted",
    "Apop.Dist.C76_poisson",
    "Apop.Dist.C76_bernoulli",
    "Apop.Dist.C76_uniform",
    "Apop.Dist.C76_normal_mean",
    "Apop.Dist.C76_normal_matrix",
    "Apop.Dist.C76_normal_vector_refuted",
    "Apop.Dist.C76_normal_both"
   ],
   "note": "proved as stated; the exclusions in the statement are sharp: theorems named _refuted give the counterexamples"
  },
  {
   "property": "C77",
   "status": "proved",
   "theorems": [
    "Apop.Dist.C77_beta_binomial",
    "Apop.Dist.C77_beta_binomial_params",
    "Apop.Dist.C77_beta_bernoulli",
    "Apop.Dist.C77_gamma_exponential",
    "Apop.Dist.C77_gamma_poisson",
    "Apop.Dist.C77_gamma_exponential_wide_refuted",
    "Apop.Dist.C77_gamma_poisson_wide_refuted",
    "Apop.Dist.C77_normal_normal",
    "Apop.Dist.C77_normal_normal_params",
    "Apop.Dist.C77_normal_normal_vector",
    "Apop.Dist.C77_bernoulli_steps",
    "Apop.Dist.C77_exponential_steps",
    "Apop.Dist.C77_poisson_steps"
   ],
   "note": "proved as stated; the exclusions in the statement are sharp: theorems named _refuted give the counterexamples"
  },
  {
   "property": "C78",
   "status": "proved",
   "theorems": [
    "Apop.Dist.C78_gamma",
    "Apop.Dist.C78_beta",
    "Apop.Dist.C78_gamma_mean",
    "Apop.Dist.C78_gamma_both_refuted",
    "Apop.Dist.C78_beta_both_refuted"
   ],
   "note": "proved as stated; the exclusions in the statement are sharp: theorems named _refuted give the counterexamples"
  },
  {
   "property": "C79",
   "status": "proved",
   "theorems": [
    "Apop.Fix.C79_fill",
    "Apop.Fix.C79_history",
    "Apop.Fix.C79_pack",
    "Apop.Fix.C79_roundtrip",
    "Apop.Fix.C79_second_page_refuted"
   ],
   "note": "counterexamples are in the _refuted theorems"
  },
  {
   "property": "C80",
   "status": "proved",
   "theorems": [
    "Apop.Dcons.C80_history",
    "Apop.Dcons.C80_density",
    "Apop.Dcons.C80_draw",
    "Apop.Dcons.C80_law",
    "Apop.Dcons.C80_law_limit",
    "Apop.Dcons.C80_scaling",
    "Apop.Dcons.C80_copy_refuted"
   ],
   "note": "counterexamples are in the _refuted theorems"
  },
  {
   "property": "C81",
   "status": "proved",
   "theorems": [
    "Apop.Mix.C81_odds",
    "Apop.Mix.C81_weights",
    "Apop.Mix.C81_loglik",
    "Apop.Mix.C81_loglik_refuted",
    "Apop.Mix.C81_cdf",
    "Apop.Mix.C81_unpack",
    "Apop.Mix.C81_unpack_refuted",
    "Apop.Mix.C81_constraint_refuted"
   ],
   "note": "counterexamples are in the _refuted theorems"
  },
  {
   "property": "C82",
   "status": "proved",
   "theorems": [
    "Apop.Cross.C82_loglik",
    "Apop.Cross.C82_p",
    "Apop.Cross.C82_estimate",
    "Apop.Cross.C82_two",
    "Apop.Cross.C82_draw",
    "Apop.Cross.C82_assembly",
    "Apop.Cross.C82_one_refuted",
    "Apop.Cross.C82_rows_refuted",
    "Apop.Cross.C82_nested_refuted"
   ],
   "note": "counterexamples are in the _refuted theorems"
  },
  {
   "property": "C83",
   "status": "proved",
   "theorems": [
    "Apop.Uniq.C83_doubles",
    "Apop.Uniq.C83_strings",
    "Apop.Uniq.C83_vector",
    "Apop.Uniq.C83_text",
    "Apop.Uniq.C83_unique",
    "Apop.Uniq.C83_no_rows_refuted"
   ],
   "note": "As stated; failing cases as separate _refuted theorems."
  },
  {
   "property": "C84",
   "status": "proved",
   "theorems": [
    "Apop.Factors.C84_bsearch",
    "Apop.Factors.C84_dummies",
    "Apop.Factors.C84_one_hot",
    "Apop.Factors.C84_factors_text",
    "Apop.Factors.C84_factors_numbers",
    "Apop.Factors.C84_old_list_refuted",
    "Apop.Factors.C84_unwritten_refuted",
    "Apop.Factors.C84_data_lost_refuted",
    "Apop.Factors.C84_vector_refuted",
    "Apop.Factors.C84_new_vector",
    "Apop.Factors.C84_new_vector_refuted"
   ],
   "note": "As stated; failing cases as separate _refuted theorems."
  },
  {
   "property": "C85",
   "status": "proved",
   "theorems": [
    "Apop.Dot.C85_matrix_matrix",
    "Apop.Dot.C85_vector_matrix",
    "Apop.Dot.C85_matrix_vector",
    "Apop.Dot.C85_vector_vector",
    "Apop.Dot.C85_parts",
    "Apop.Dot.C85_names",
    "Apop.Dot.C85_assoc"
   ],
   "note": "As stated; failing cases as separate _refuted theorems."
  },
  {
   "property": "C86",
   "status": "proved",
   "theorems": [
    "Apop.Ols.C86_when",
    "Apop.Ols.C86_normal",
    "Apop.Ols.C86_least",
    "Apop.Ols.C86_exact",
    "Apop.Ols.C86_shift",
    "Apop.Ols.C86_covariance",
    "Apop.Ols.C86_page",
    "Apop.Ols.C86_residual_refuted",
    "Apop.Ols.C86_weighted_page",
    "Apop.Ols.C86_shuffle"
   ],
   "note": "As stated; failing cases as separate _refuted theorems."
  },
  {
   "property": "C87",
   "status": "proved",
   "theorems": [
    "Apop.Ols.C87_r2",
    "Apop.Ols.C87_adjusted",
    "Apop.Ols.C87_adjusted_refuted",
    "Apop.Ols.C87_weighted_refuted"
   ],
   "note": "As stated; failing cases as separate _refuted theorems."
  },
  {
   "property": "C88",
   "status": "proved",
   "theorems": [
    "Apop.LinCon.C88_met",
    "Apop.LinCon.C88_single",
    "Apop.LinCon.C88_single_margin",
    "Apop.LinCon.C88_margin_refuted",
    "Apop.LinCon.C88_default",
    "Apop.LinCon.C88_several_refuted",
    "Apop.LinCon.C88_history_refuted",
    "Apop.LinCon.C88_history_case_refuted"
   ],
   "note": "As stated; exact arithmetic."
  },
  {
   "property": "C89",
   "status": "proved",
   "theorems": [
    "Apop.Jack.C89_pseudovalues",
    "Apop.Jack.C89_value",
    "Apop.Jack.C89_mean",
    "Apop.Jack.C89_scale_refuted",
    "Apop.Jack.C89_nonneg"
   ],
   "note": "As stated; exact arithmetic."
  },
  {
   "property": "C90",
   "status": "proved",
   "theorems": [
    "Apop.Boot.C90_sample",
    "Apop.Boot.C90_ignore",
    "Apop.Boot.C90_clean",
    "Apop.Boot.C90_kept_refuted",
    "Apop.Boot.C90_first_refuted",
    "Apop.Boot.C90_error_refuted"
   ],
   "note": "As stated; exact arithmetic."
  },
  {
   "property": "C91",
   "status": "proved",
   "theorems": [
    "Apop.Rake.C91_notes",
    "Apop.Rake.C91_margins",
    "Apop.Rake.C91_nonneg",
    "Apop.Rake.C91_converges",
    "Apop.Rake.C91_distance",
    "Apop.Rake.C91_error",
    "Apop.Rake.C91_fixed",
    "Apop.Rake.C91_loglinear",
    "Apop.Rake.C91_outside",
    "Apop.Rake.C91_start",
    "Apop.Rake.C91_error_refuted",
    "Apop.Rake.C91_error_met_refuted"
   ],
   "note": "c_loglin in exact arithmetic; the queries that build the tables are not modelled."
  },
  {
   "property": "C92",
   "status": "proved",
   "theorems": [
    "Apop.MovAvg.C92_value",
    "Apop.MovAvg.C92_window",
    "Apop.MovAvg.C92_between",
    "Apop.MovAvg.C92_one",
    "Apop.MovAvg.C92_wide_refuted",
    "Apop.MovAvg.C92_null"
   ],
   "note": "As stated; exact arithmetic; failing cases as separate _refuted theorems."
  },
  {
   "property": "C93",
   "status": "proved",
   "theorems": [
    "Apop.Bins.C93_bin",
    "Apop.Bins.C93_columns",
    "Apop.Bins.C93_idempotent",
    "Apop.Bins.C93_default",
    "Apop.Bins.C93_constant_refuted",
    "Apop.Bins.C93_zero_refuted",
    "Apop.Bins.C93_top_rounded_refuted"
   ],
   "note": "As stated; exact arithmetic; failing cases as separate _refuted theorems."
  },
  {
   "property": "C94",
   "status": "proved",
   "theorems": [
    "Apop.Smirnov.C94_distribution",
    "Apop.Smirnov.C94_pvalue",
    "Apop.Smirnov.C94_orders",
    "Apop.Smirnov.C94_symm"
   ],
   "note": "As stated; exact arithmetic; failing cases as separate _refuted theorems."
  },
  {
   "property": "C95",
   "status": "proved",
   "theorems": [
    "Apop.Kolmogorov.C95_power",
    "Apop.Kolmogorov.C95_zero_refuted",
    "Apop.Kolmogorov.C95_formula",
    "Apop.Kolmogorov.C95_one"
   ],
   "note": "As stated; exact arithmetic; failing cases as separate _refuted theorems."
  },
  {
   "property": "C96",
   "status": "partial",
   "theorems": [
    "Apop.Ks.C96_at_observations",
    "Apop.Ks.C96_one_sample",
    "Apop.Ks.C96_below_refuted",
    "Apop.Ks.C96_two_samples_refuted",
    "Apop.Ks.C96_second_loop_refuted",
    "Apop.Ks.C96_pvalue",
    "Apop.Ks.C96_pvalue_two"
   ],
   "note": "the documented distance is refuted; what is computed, its bounds and the p values are proved"
  },
  {
   "property": "C97",
   "status": "proved",
   "theorems": [
    "Apop.Gof.C97_statistic",
    "Apop.Gof.C97_impossible",
    "Apop.Gof.C97_zero_iff",
    "Apop.Gof.C97_skipped_refuted",
    "Apop.Gof.C97_empty_bin_refuted",
    "Apop.Gof.C97_normalised_refuted",
    "Apop.Gof.C97_counts_refuted"
   ],
   "note": "As stated; exact arithmetic; failing cases as separate _refuted theorems."
  },
  {
   "property": "C98",
   "status": "proved",
   "theorems": [
    "Apop.TTest.C98_tails",
    "Apop.TTest.C98_two_samples",
    "Apop.TTest.C98_one",
    "Apop.TTest.C98_statistic_refuted",
    "Apop.TTest.C98_exchange",
    "Apop.TTest.C98_units",
    "Apop.TTest.C98_constant",
    "Apop.TTest.C98_paired"
   ],
   "note": "As stated; exact arithmetic; failing cases as separate _refuted theorems."
  },
  {
   "property": "C99",
   "status": "proved",
   "theorems": [
    "Apop.FTest.C99_statistic",
    "Apop.FTest.C99_df_refuted",
    "Apop.FTest.C99_error",
    "Apop.FTest.C99_zero_iff",
    "Apop.FTest.C99_constant_refuted",
    "Apop.FTest.C99_contrast_refuted"
   ],
   "note": "As stated; exact arithmetic; failing cases as separate _refuted theorems."
  },
  {
   "property": "C100",
   "status": "proved",
   "theorems": [
    "Apop.Indep.C100_statistic",
    "Apop.Indep.C100_zero_iff",
    "Apop.Indep.C100_transpose",
    "Apop.Indep.C100_empty_row_refuted",
    "Apop.Indep.C100_fraction_refuted",
    "Apop.Indep.C100_below_one_refuted",
    "Apop.Indep.C100_one_row_refuted",
    "Apop.Indep.C100_one_column_refuted"
   ],
   "note": "As stated; exact arithmetic; failing cases as separate _refuted theorems."
  },
  {
   "property": "C101",
   "status": "partial",
   "theorems": [
    "Apop.Anova.C101_total",
    "Apop.Anova.C101_adds",
    "Apop.Anova.C101_ratios",
    "Apop.Anova.C101_tests",
    "Apop.Anova.C101_identity",
    "Apop.Anova.C101_between_refuted",
    "Apop.Anova.C101_example_refuted",
    "Apop.Anova.C101_df_refuted",
    "Apop.Anova.C101_tails_refuted"
   ],
   "note": "the grouping's sum of squares, total df and p value tail are refuted; the rest is proved"
  },
  {
   "property": "C102",
   "status": "proved",
   "theorems": [
    "Apop.Lookup.C102_one_tail",
    "Apop.Lookup.C102_defaults",
    "Apop.Lookup.C102_case",
    "Apop.Lookup.C102_two_tails",
    "Apop.Lookup.C102_normal_refuted",
    "Apop.Lookup.C102_uniform_refuted",
    "Apop.Lookup.C102_null_refuted",
    "Apop.Lookup.C102_zero_refuted",
    "Apop.Lookup.C102_lognormal_refuted"
   ],
   "note": "As stated; exact arithmetic; failing cases as separate _refuted theorems."
  },
  {
   "property": "C103",
   "status": "proved",
   "theorems": [
    "Apop.Sql.C103_sample",
    "Apop.Sql.C103_population",
    "Apop.Sql.C103_variance_refuted",
    "Apop.Sql.C103_skew",
    "Apop.Sql.C103_kurtosis_refuted",
    "Apop.Sql.C103_kurtosis",
    "Apop.Sql.C103_few",
    "Apop.Sql.C103_one",
    "Apop.Sql.C103_null_refuted",
    "Apop.Sql.C103_null_example_refuted"
   ],
   "note": "As stated; exact arithmetic; failing cases as separate _refuted theorems."
  },
  {
   "property": "C104",
   "status": "proved",
   "theorems": [
    "Apop.Db.ToData.C104_contents",
    "Apop.Db.ToData.C104_name_column",
    "Apop.Db.ToData.C104_row_names",
    "Apop.Db.ToData.C104_null_name_refuted",
    "Apop.Db.ToData.C104_no_rows",
    "Apop.Db.ToData.C104_error",
    "Apop.Db.ToData.C104_vector",
    "Apop.Db.ToData.C104_float",
    "Apop.Db.ToData.C104_vector_refuted",
    "Apop.Db.ToData.C104_value"
   ],
   "note": "see statement; failing cases are the _refuted theorems"
  },
  {
   "property": "C105",
   "status": "proved",
   "theorems": [
    "Apop.Db.ToText.C105_contents",
    "Apop.Db.ToText.C105_format_refuted",
    "Apop.Db.ToText.C105_percent_refuted",
    "Apop.Db.ToText.C105_only_names_refuted"
   ],
   "note": "see statement; failing cases are the _refuted theorems"
  },
  {
   "property": "C106",
   "status": "proved",
   "theorems": [
    "Apop.Db.Mixed.C106_contents",
    "Apop.Db.Mixed.C106_one_more_refuted",
    "Apop.Db.Mixed.C106_many_more_refuted",
    "Apop.Db.Mixed.C106_fewer",
    "Apop.Db.Mixed.C106_two_names_refuted",
    "Apop.Db.Mixed.C106_value"
   ],
   "note": "see statement; failing cases are the _refuted theorems"
  },
  {
   "property": "C107",
   "status": "proved",
   "theorems": [
    "Apop.Db.ToDb.C107_new_table",
    "Apop.Db.ToDb.C107_text_names_refuted",
    "Apop.Db.ToDb.C107_positions",
    "Apop.Db.ToDb.C107_mismatch",
    "Apop.Db.ToDb.C107_empty",
    "Apop.Db.ToDb.C107_append",
    "Apop.Db.ToDb.C107_names_refuted",
    "Apop.Db.ToDb.C107_empty_name_refuted",
    "Apop.Db.ToDb.C107_ragged_refuted",
    "Apop.Db.ToDb.C107_weights_refuted"
   ],
   "note": "see statement; failing cases are the _refuted theorems"
  },
  {
   "property": "C108",
   "status": "proved",
   "theorems": [
    "Apop.Db.ToDb.C108_table_exists",
    "Apop.Db.ToDb.C108_case_refuted",
    "Apop.Db.ToDb.C108_print",
    "Apop.Db.ToDb.C108_default_refuted",
    "Apop.Db.ToDb.C108_case_overwrite_refuted"
   ],
   "note": "see statement; failing cases are the _refuted theorems"
  },
  {
   "property": "C109",
   "status": "proved",
   "theorems": [
    "Apop.Mod.C109_prep",
    "Apop.Mod.C109_error",
    "Apop.Mod.C109_kept",
    "Apop.Mod.C109_noop",
    "Apop.Mod.C109_noop_refuted",
    "Apop.Mod.C109_msize_refuted",
    "Apop.Mod.C109_set_parameters",
    "Apop.Mod.C109_set_parameters_matrix",
    "Apop.Mod.C109_set_too_few",
    "Apop.Mod.C109_set_undetermined"
   ],
   "note": "see DESIGN.md"
  },
  {
   "property": "C110",
   "status": "proved",
   "theorems": [
    "Apop.Mod.C110_consistent",
    "Apop.Mod.C110_own",
    "Apop.Mod.C110_order",
    "Apop.Mod.C110_negative"
   ],
   "note": "see DESIGN.md"
  },
  {
   "property": "C111",
   "status": "proved",
   "theorems": [
    "Apop.Mod.Cdf.C111_history",
    "Apop.Mod.Cdf.C111_range",
    "Apop.Mod.Cdf.C111_monotone",
    "Apop.Mod.Cdf.C111_example",
    "Apop.Mod.Cdf.C111_nan_refuted",
    "Apop.Mod.Cdf.C111_narrow_refuted"
   ],
   "note": "see DESIGN.md"
  },
  {
   "property": "C112",
   "status": "proved",
   "theorems": [
    "Apop.Mod.Cdf.C112_no_leak",
    "Apop.Mod.Cdf.C112_safe",
    "Apop.Mod.Cdf.C112_leak_refuted"
   ],
   "note": "see DESIGN.md"
  },
  {
   "property": "C113",
   "status": "proved",
   "theorems": [
    "Apop.Mod.C113_dispatch",
    "Apop.Mod.C113_stable",
    "Apop.Mod.C113_endless_refuted"
   ],
   "note": "see DESIGN.md"
  },
  {
   "property": "C114",
   "status": "proved",
   "theorems": [
    "Apop.Mod.C114_score",
    "Apop.Mod.C114_predict",
    "Apop.Mod.C114_predict_refuted",
    "Apop.Mod.C114_print",
    "Apop.Mod.C114_update",
    "Apop.Mod.C114_update_collision_refuted"
   ],
   "note": "see DESIGN.md"
  },
  {
   "property": "C115",
   "status": "proved",
   "theorems": [
    "Apop.Out.C115_print_read",
    "Apop.Out.C115_print_read_nohead",
    "Apop.Out.C115_rounding",
    "Apop.Out.C115_print_read_exact",
    "Apop.Out.C115_small_lost",
    "Apop.Out.C115_out_of_range_ub",
    "Apop.Out.C115_weights_refuted",
    "Apop.Out.C115_title"
   ],
   "note": "Exact for six decimals, within 5e-7 otherwise; weights, NaN, out of range refuted (C115_weights_refuted, C115_out_of_range_ub, C115_small_lost)."
  },
  {
   "property": "C116",
   "status": "proved",
   "theorems": [
    "Apop.Out.C116_print_db"
   ],
   "note": "Records of a printed file loaded by apop_text_to_db."
  },
  {
   "property": "C117",
   "status": "proved",
   "theorems": [
    "Apop.Out.C117_vector_tab",
    "Apop.Out.C117_vector_comma_refuted",
    "Apop.Out.C117_vector_only",
    "Apop.Out.C117_long_vector_cut",
    "Apop.Out.C117_weights_only_nothing"
   ],
   "note": "Tab: proved; other delimiters refuted (C117_vector_comma_refuted); C117_long_vector_cut, C117_weights_only_nothing."
  },
  {
   "property": "C118",
   "status": "proved",
   "theorems": [
    "Apop.Out.Pg.C118_pipe",
    "Apop.Out.Pg.C118_one_page",
    "Apop.Out.Pg.C118_pages_reversed",
    "Apop.Out.Pg.C118_pages_overwritten",
    "Apop.Out.Pg.C118_pages_lost",
    "Apop.Out.Pg.C118_unbuffered",
    "Apop.Out.Pg.C118_settings",
    "Apop.Out.Pg.C118_append_mode",
    "Apop.Out.Pg.C118_default_append_refuted",
    "Apop.Out.Pg.C118_pipe_and_name"
   ],
   "note": "Pipe and one page proved; several pages to a file refuted (C118_pages_reversed, C118_pages_overwritten, C118_pages_lost), default append refuted."
  },
  {
   "property": "C119",
   "status": "proved",
   "theorems": [
    "Apop.Mle.C119_gradient_close",
    "Apop.Mle.C119_gradient_exact",
    "Apop.Mle.C119_gradient_keeps_others",
    "Apop.Mle.C119_gradient_moves_last_refuted",
    "Apop.Mle.C119_penalty_sign_refuted"
   ],
   "note": "see statement for refuted cases"
  },
  {
   "property": "C120",
   "status": "proved",
   "theorems": [
    "Apop.Mle.C120_hessian_symmetric",
    "Apop.Mle.C120_hessian_exact",
    "Apop.Mle.C120_hessian_keeps_others",
    "Apop.Mle.C120_hessian_moves_last_refuted"
   ],
   "note": "see statement for refuted cases"
  },
  {
   "property": "C121",
   "status": "proved",
   "theorems": [
    "Apop.Mle.C121_covariance",
    "Apop.Mle.C121_covariance_posdef",
    "Apop.Mle.C121_singular_refuted"
   ],
   "note": "see statement for refuted cases"
  },
  {
   "property": "C122",
   "status": "proved",
   "theorems": [
    "Apop.Mle.Shell.C122_path_complete",
    "Apop.Mle.Shell.C122_no_path",
    "Apop.Mle.Shell.C122_negshell"
   ],
   "note": "see statement for refuted cases"
  },
  {
   "property": "C123",
   "status": "proved",
   "theorems": [
    "Apop.Mle.Shell.C123_reported",
    "Apop.Mle.Shell.C123_not_best_refuted",
    "Apop.Mle.Shell.C123_freed_refuted"
   ],
   "note": "see statement for refuted cases"
  },
  {
   "property": "C124",
   "status": "proved",
   "theorems": [
    "Apop.Mle.AnnealStatus.C124_status_anneal",
    "Apop.Mle.AnnealStatus.C124_anneal_nan",
    "Apop.Mle.AnnealStatus.C124_anneal_interrupt_refuted",
    "Apop.Mle.Status.C124_status_cg",
    "Apop.Mle.Status.C124_status_cg_cases",
    "Apop.Mle.Status.C124_status_simplex",
    "Apop.Mle.Status.C124_simplex_zero_refuted",
    "Apop.Mle.Status.C124_cg_zero_refuted",
    "Apop.Mle.Status.C124_nonzero_refuted"
   ],
   "note": "see statement for refuted cases"
  },
  {
   "property": "C125",
   "status": "proved",
   "theorems": [
    "Apop.Mle.Status.C125_method_table",
    "Apop.Mle.Status.C125_default",
    "Apop.Mle.Status.C125_unknown",
    "Apop.Mle.Status.C125_short_start_refuted",
    "Apop.Mle.Status.C125_parts"
   ],
   "note": "see statement for refuted cases"
  },
  {
   "property": "C126",
   "status": "proved",
   "theorems": [
    "Apop.Mle.Restart.C126_restart",
    "Apop.Mle.Restart.C126_diverged",
    "Apop.Mle.Restart.C126_never_worse",
    "Apop.Mle.Restart.C126_matrix_nan_refuted",
    "Apop.Mle.Restart.C126_es_ignored_refuted",
    "Apop.Mle.Restart.C126_ns_truncates_refuted"
   ],
   "note": "see statement for refuted cases"
  },
  {
   "property": "C127",
   "status": "proved",
   "theorems": [
    "Apop.Mle.Anneal.C127_best_of_seen",
    "Apop.Mle.Anneal.C127_interrupt_refuted",
    "Apop.Mle.Anneal.C127_step_small",
    "Apop.Mle.Anneal.C127_step_bound",
    "Apop.Mle.Anneal.C127_scale",
    "Apop.Mle.Anneal.C127_step_long_refuted",
    "Apop.Mle.Anneal.C127_one_parameter_grid"
   ],
   "note": "see statement for refuted cases"
  },
  {
   "property": "C128",
   "status": "proved",
   "theorems": [
    "Apop.Mle.Cycle.C128_stops",
    "Apop.Mle.Cycle.C128_not_worse",
    "Apop.Mle.Cycle.C128_terminates",
    "Apop.Mle.Cycle.C128_endless_refuted"
   ],
   "note": "see statement for refuted cases"
  },
  {
   "property": "C129",
   "status": "proved",
   "theorems": [
    "Apop.Mle.Cycle.C129_one_free",
    "Apop.Mle.Cycle.C129_size",
    "Apop.Mle.Cycle.C129_two_free_refuted"
   ],
   "note": "see statement for refuted cases"
  },
  {
   "property": "C130",
   "status": "proved",
   "theorems": [
    "Apop.Choice.C130_row",
    "Apop.Choice.C130_distribution",
    "Apop.Choice.C130_sample",
    "Apop.Choice.C130_overflow",
    "Apop.Choice.C130_unknown_outcome_refuted"
   ],
   "note": "As stated; cases marked refuted in the statement are separate _refuted theorems."
  },
  {
   "property": "C131",
   "status": "proved",
   "theorems": [
    "Apop.Choice.C131_row",
    "Apop.Choice.C131_distribution",
    "Apop.Choice.C131_agrees"
   ],
   "note": "As stated; cases marked refuted in the statement are separate _refuted theorems."
  },
  {
   "property": "C132",
   "status": "proved",
   "theorems": [
    "Apop.Choice.C132_ll",
    "Apop.Choice.C132_finite",
    "Apop.Choice.C132_score"
   ],
   "note": "As stated; cases marked refuted in the statement are separate _refuted theorems."
  },
  {
   "property": "C133",
   "status": "partial",
   "theorems": [
    "Apop.Choice.C133_sum_of_binary_partial",
    "Apop.Choice.C133_ignored_columns_refuted",
    "Apop.Choice.C133_own_columns_refuted",
    "Apop.Choice.C133_unchosen_refuted"
   ],
   "note": "Sum of binary probits proved, with the one column actually used; the documented column per category is refuted."
  },
  {
   "property": "C134",
   "status": "proved",
   "theorems": [
    "Apop.Choice.C134_given_page",
    "Apop.Choice.C134_raw_unnamed",
    "Apop.Choice.C134_raw_numbered",
    "Apop.Choice.C134_raw_vector_refuted"
   ],
   "note": "As stated; cases marked refuted in the statement are separate _refuted theorems."
  },
  {
   "property": "C135",
   "status": "proved",
   "theorems": [
    "Apop.Choice.C135_magnitude",
    "Apop.Choice.C135_geometric",
    "Apop.Choice.C135_shape"
   ],
   "note": "As stated; cases marked refuted in the statement are separate _refuted theorems."
  },
  {
   "property": "C136",
   "status": "partial",
   "theorems": [
    "Apop.Choice.C136_weights_partial",
    "Apop.Choice.C136_unwritten_refuted",
    "Apop.Choice.C136_overrun_refuted",
    "Apop.Choice.C136_inputs_refuted"
   ],
   "note": "Weights proved; writing of the category, size of the output and the inputs are refuted."
  },
  {
   "property": "C137",
   "status": "proved",
   "theorems": [
    "Apop.Density.C137_ll",
    "Apop.Density.C137_integrates"
   ],
   "note": "As stated; cases marked refuted in the statement are separate _refuted theorems."
  },
  {
   "property": "C138",
   "status": "proved",
   "theorems": [
    "Apop.Density.C138_cdf",
    "Apop.Density.C138_monotone",
    "Apop.Density.C138_range"
   ],
   "note": "As stated; cases marked refuted in the statement are separate _refuted theorems."
  },
  {
   "property": "C139",
   "status": "proved",
   "theorems": [
    "Apop.Density.C139_draw",
    "Apop.Density.C139_share",
    "Apop.Density.C139_both_parts_refuted",
    "Apop.Density.C139_unweighted_refuted"
   ],
   "note": "As stated; cases marked refuted in the statement are separate _refuted theorems."
  },
  {
   "property": "C140",
   "status": "proved",
   "theorems": [
    "Apop.Density.Mvn.C140_ll",
    "Apop.Density.Mvn.C140_integrates",
    "Apop.Density.Mvn.C140_degenerate",
    "Apop.Density.Mvn.C140_one_dimension",
    "Apop.Density.Mvn.C140_asymmetric_refuted"
   ],
   "note": "As stated; cases marked refuted in the statement are separate _refuted theorems."
  },
  {
   "property": "C141",
   "status": "proved",
   "theorems": [
    "Apop.Density.Mvn.C141_mean_is_best",
    "Apop.Density.Mvn.C141_few_rows",
    "Apop.Density.Mvn.C141_covariance_refuted"
   ],
   "note": "As stated; cases marked refuted in the statement are separate _refuted theorems."
  },
  {
   "property": "C142",
   "status": "proved",
   "theorems": [
    "Apop.Density.Mvn.C142_law",
    "Apop.Density.Mvn.C142_draw"
   ],
   "note": "As stated; cases marked refuted in the statement are separate _refuted theorems."
  },
  {
   "property": "C143",
   "status": "proved",
   "theorems": [
    "Apop.Density.Dirichlet.C143_ll",
    "Apop.Density.Dirichlet.C143_score",
    "Apop.Density.Dirichlet.C143_beta",
    "Apop.Density.Dirichlet.C143_tiny",
    "Apop.Density.Dirichlet.C143_not_shares_refuted",
    "Apop.Density.Dirichlet.C143_negative_refuted"
   ],
   "note": "As stated; cases marked refuted in the statement are separate _refuted theorems."
  },
  {
   "property": "C144",
   "status": "proved",
   "theorems": [
    "Apop.Transform.Coord.C144_ll",
    "Apop.Transform.Coord.C144_missing",
    "Apop.Transform.Coord.C144_independent",
    "Apop.Transform.Coord.C144_density",
    "Apop.Transform.Coord.C144_lognormal",
    "Apop.Transform.Coord.C144_example_refuted",
    "Apop.Transform.Coord.C144_decreasing_refuted"
   ],
   "note": "As stated; cases marked refuted in the statement are separate _refuted theorems."
  },
  {
   "property": "C145",
   "status": "proved",
   "theorems": [
    "Apop.Transform.Coord.C145_parameters",
    "Apop.Transform.Coord.C145_copy_refuted",
    "Apop.Transform.Coord.C145_two_estimates_refuted",
    "Apop.Transform.Coord.C145_no_settings_refuted"
   ],
   "note": "As stated; cases marked refuted in the statement are separate _refuted theorems."
  },
  {
   "property": "C146",
   "status": "proved",
   "theorems": [
    "Apop.Dist.Multinomial.C146_ll",
    "Apop.Dist.Multinomial.C146_ll_two",
    "Apop.Dist.Multinomial.C146_distribution",
    "Apop.Dist.Multinomial.C146_two_draws_refuted",
    "Apop.Dist.Multinomial.C146_total_refuted",
    "Apop.Dist.Multinomial.C146_short_row_refuted"
   ],
   "note": "n=2 with three bins, totals and short rows: refuted theorems, as in the statement"
  },
  {
   "property": "C147",
   "status": "proved",
   "theorems": [
    "Apop.Dist.Multinomial.C147_estimate",
    "Apop.Dist.Multinomial.C147_best",
    "Apop.Dist.Multinomial.C147_covariance",
    "Apop.Dist.Multinomial.C147_variance_refuted",
    "Apop.Dist.Multinomial.C147_total"
   ],
   "note": "documented variance of the estimates refuted by C147_variance_refuted"
  },
  {
   "property": "C148",
   "status": "proved",
   "theorems": [
    "Apop.Dist.Multinomial.C148_law",
    "Apop.Dist.Multinomial.C148_restores",
    "Apop.Dist.Multinomial.C148_restores_refuted",
    "Apop.Dist.Multinomial.C148_binomial_refuted",
    "Apop.Dist.Multinomial.C148_dsize_refuted"
   ],
   "note": "gsl_ran_binomial taken by its documented law"
  },
  {
   "property": "C149",
   "status": "proved",
   "theorems": [
    "Apop.Rng.C149_ends",
    "Apop.Rng.C149_law",
    "Apop.Rng.C149_range",
    "Apop.Rng.C149_limit",
    "Apop.Rng.C149_overflow_refuted",
    "Apop.Rng.C149_one_refuted"
   ],
   "note": "idealised uniform reals and exact arithmetic; overflow shown by C149_overflow_refuted, C149_one_refuted"
  },
  {
   "property": "C150",
   "status": "proved",
   "theorems": [
    "Apop.Rng.C150_law",
    "Apop.Rng.C150_parameter_refuted"
   ],
   "note": "idealised uniform reals; unchecked parameter: C150_parameter_refuted"
  },
  {
   "property": "C151",
   "status": "proved",
   "theorems": [
    "Apop.Rng.C151_point",
    "Apop.Rng.C151_uniform",
    "Apop.Rng.C151_uniform_density",
    "Apop.Rng.C151_exponential",
    "Apop.Rng.C151_exponential_density",
    "Apop.Rng.C151_bernoulli",
    "Apop.Rng.C151_normal",
    "Apop.Rng.C151_lognormal",
    "Apop.Rng.C151_t",
    "Apop.Rng.C151_no_data_refuted"
   ],
   "note": "GSL normal/t laws by documentation"
  },
  {
   "property": "C152",
   "status": "proved",
   "theorems": [
    "Apop.Arms.C152_violation",
    "Apop.Arms.C152_above",
    "Apop.Arms.C152_initial"
   ],
   "note": "exact arithmetic; uniform numbers idealised; see Verif/Arms"
  },
  {
   "property": "C153",
   "status": "proved",
   "theorems": [
    "Apop.Arms.C153_case",
    "Apop.Arms.C153_reach",
    "Apop.Arms.C153_above",
    "Apop.Arms.C153_update",
    "Apop.Arms.C153_points",
    "Apop.Arms.C153_inside"
   ],
   "note": "exact arithmetic; uniform numbers idealised; see Verif/Arms"
  },
  {
   "property": "C154",
   "status": "proved",
   "theorems": [
    "Apop.Arms.C154_flat_refuted",
    "Apop.Arms.C154_invert",
    "Apop.Arms.C154_height",
    "Apop.Arms.C154_over",
    "Apop.Arms.C154_ymax",
    "Apop.Arms.C154_draw"
   ],
   "note": "exact arithmetic; uniform numbers idealised; see Verif/Arms"
  },
  {
   "property": "C155",
   "status": "proved",
   "theorems": [
    "Apop.Arms.C155_plain",
    "Apop.Arms.C155_moves",
    "Apop.Arms.C155_balance",
    "Apop.Arms.C155_case",
    "Apop.Arms.C155_law",
    "Apop.Arms.C155_law_metro"
   ],
   "note": "exact arithmetic; uniform numbers idealised; see Verif/Arms"
  },
  {
   "property": "C156",
   "status": "proved",
   "theorems": [
    "Apop.Ols.C156_by_number",
    "Apop.Ols.C156_by_name",
    "Apop.Ols.C156_moments",
    "Apop.Ols.C156_when",
    "Apop.Ols.C156_exact",
    "Apop.Ols.C156_page",
    "Apop.Ols.C156_covariance",
    "Apop.Ols.C156_least_squares",
    "Apop.Ols.C156_no_instruments_refuted",
    "Apop.Ols.C156_weights_refuted"
   ],
   "note": "see statement; failing cases as _refuted theorems"
  },
  {
   "property": "C157",
   "status": "proved",
   "theorems": [
    "Apop.Ols.C157_value",
    "Apop.Ols.C157_sample_variance",
    "Apop.Ols.C157_unprepared",
    "Apop.Ols.C157_maximum",
    "Apop.Ols.C157_own",
    "Apop.Ols.C157_reported",
    "Apop.Ols.C157_stale_refuted",
    "Apop.Ols.C157_weights",
    "Apop.Ols.C157_weights_refuted",
    "Apop.Ols.C157_own_weights_refuted"
   ],
   "note": "see statement; failing cases as _refuted theorems"
  },
  {
   "property": "C158",
   "status": "proved",
   "theorems": [
    "Apop.Ols.C158_score",
    "Apop.Ols.C158_sign_refuted",
    "Apop.Ols.C158_zero",
    "Apop.Ols.C158_unprepared_refuted"
   ],
   "note": "see statement; failing cases as _refuted theorems"
  },
  {
   "property": "C159",
   "status": "proved",
   "theorems": [
    "Apop.Ols.C159_predict",
    "Apop.Ols.C159_idempotent",
    "Apop.Ols.C159_own",
    "Apop.Ols.C159_unread"
   ],
   "note": "see statement; failing cases as _refuted theorems"
  },
  {
   "property": "C160",
   "status": "proved",
   "theorems": [
    "Apop.Ols.C160_draw",
    "Apop.Ols.C160_draw_one",
    "Apop.Ols.C160_law",
    "Apop.Ols.C160_variance",
    "Apop.Ols.C160_size_refuted",
    "Apop.Ols.C160_improper",
    "Apop.Ols.C160_pmf_refuted"
   ],
   "note": "see statement; failing cases as _refuted theorems"
  },
  {
   "property": "C161",
   "status": "proved",
   "theorems": [
    "Apop.ParamTest.C161_p_value",
    "Apop.ParamTest.C161_df",
    "Apop.ParamTest.C161_bounds",
    "Apop.ParamTest.C161_perfect",
    "Apop.ParamTest.C161_default_refuted"
   ],
   "note": "see statement; failing cases as _refuted theorems"
  },
  {
   "property": "C162",
   "status": "proved",
   "theorems": [
    "Apop.Linalg.C162_determinant",
    "Apop.Linalg.C162_inverse",
    "Apop.Linalg.C162_both",
    "Apop.Linalg.C162_not_square",
    "Apop.Linalg.C162_zero_refuted"
   ],
   "note": "see DESIGN row"
  },
  {
   "property": "C163",
   "status": "proved",
   "theorems": [
    "Apop.Linalg.C163_iff",
    "Apop.Linalg.C163_null",
    "Apop.Linalg.C163_sound_any",
    "Apop.Linalg.C163_semidefinite_refuted",
    "Apop.Linalg.C163_asymmetric_refuted",
    "Apop.Linalg.C163_tall_refuted"
   ],
   "note": "see DESIGN row"
  },
  {
   "property": "C164",
   "status": "proved",
   "theorems": [
    "Apop.Linalg.C164_result",
    "Apop.Linalg.C164_zero",
    "Apop.Linalg.C164_idempotent",
    "Apop.Linalg.C164_trace_zero_refuted",
    "Apop.Linalg.C164_closest_refuted",
    "Apop.Linalg.C164_terminates",
    "Apop.Linalg.C164_returns",
    "Apop.Linalg.C164_endless_refuted"
   ],
   "note": "see DESIGN row"
  },
  {
   "property": "C165",
   "status": "proved",
   "theorems": [
    "Apop.Linalg.C165_centred",
    "Apop.Linalg.C165_components",
    "Apop.Linalg.C165_sum",
    "Apop.Linalg.C165_best",
    "Apop.Linalg.C165_too_many",
    "Apop.Linalg.C165_constant_refuted"
   ],
   "note": "see DESIGN row"
  },
  {
   "property": "C166",
   "status": "proved",
   "theorems": [
    "Apop.Linalg.MvGamma.C166_value",
    "Apop.Linalg.MvGamma.C166_positive",
    "Apop.Linalg.MvGamma.C166_recursion",
    "Apop.Linalg.MvGamma.C166_nan",
    "Apop.Linalg.MvGamma.C166_even_refuted"
   ],
   "note": "see DESIGN row"
  },
  {
   "property": "C167",
   "status": "proved",
   "theorems": [
    "Apop.Mcmc.Adapt.C167_form",
    "Apop.Mcmc.Adapt.C167_direction",
    "Apop.Mcmc.Adapt.C167_little",
    "Apop.Mcmc.Adapt.C167_stationary"
   ],
   "note": ""
  },
  {
   "property": "C168",
   "status": "proved",
   "theorems": [
    "Apop.Mcmc.C168_retry",
    "Apop.Mcmc.C168_stationary",
    "Apop.Mcmc.C168_biased",
    "Apop.Mcmc.C168_positive_refuted",
    "Apop.Mcmc.C168_oversampled_refuted"
   ],
   "note": ""
  },
  {
   "property": "C169",
   "status": "proved",
   "theorems": [
    "Apop.Update.C169_rows",
    "Apop.Update.C169_never",
    "Apop.Update.C169_posterior"
   ],
   "note": ""
  },
  {
   "property": "C170",
   "status": "proved",
   "theorems": [
    "Apop.Update.C170_route",
    "Apop.Update.C170_product",
    "Apop.Update.C170_posterior",
    "Apop.Update.C170_constraint"
   ],
   "note": ""
  },
  {
   "property": "C171",
   "status": "proved",
   "theorems": [
    "Apop.Impute.C171_search",
    "Apop.Impute.C171_impute"
   ],
   "note": ""
  },
  {
   "property": "C172",
   "status": "proved",
   "theorems": [
    "Apop.Stats.C172_summary",
    "Apop.Stats.C172_weighted",
    "Apop.Stats.C172_one_row",
    "Apop.Stats.C172_median_even_refuted",
    "Apop.Stats.C172_median_weights_refuted",
    "Apop.Stats.C172_names",
    "Apop.Stats.C172_correlation",
    "Apop.Stats.C172_affine",
    "Apop.Stats.C172_constant"
   ],
   "note": ""
  },
  {
   "property": "C173",
   "status": "proved",
   "theorems": [
    "Apop.Entropy.C173_normal",
    "Apop.Entropy.C173_draws",
    "Apop.Entropy.C173_kl",
    "Apop.Entropy.C173_kl_infinite",
    "Apop.Entropy.C173_kl_nonneg"
   ],
   "note": ""
  },
  {
   "property": "C174",
   "status": "proved",
   "theorems": [
    "Apop.LinCon.C174_multinomial",
    "Apop.LinCon.C174_t",
    "Apop.LinCon.C174_t_zero_refuted",
    "Apop.LinCon.C174_single",
    "Apop.LinCon.C174_bernoulli",
    "Apop.LinCon.C174_positive",
    "Apop.LinCon.C174_beta",
    "Apop.LinCon.C174_overshoot_refuted",
    "Apop.LinCon.C174_dirichlet_refuted",
    "Apop.LinCon.C174_shared_refuted"
   ],
   "note": ""
  },
  {
   "property": "C175",
   "status": "proved",
   "theorems": [
    "Apop.Rake.C175_contrast",
    "Apop.Rake.C175_contrast_words",
    "Apop.Rake.C175_columns",
    "Apop.Rake.C175_synthetic",
    "Apop.Rake.C175_nudged",
    "Apop.Rake.C175_init",
    "Apop.Rake.C175_complete",
    "Apop.Rake.C175_errors",
    "Apop.Rake.C175_nudge_lost_refuted",
    "Apop.Rake.C175_nudge_twice_refuted"
   ],
   "note": ""
  },
  {
   "property": "C176",
   "status": "proved",
   "theorems": [
    "Apop.Map.C176_vector_apply",
    "Apop.Map.C176_matrix_map",
    "Apop.Map.C176_matrix_apply",
    "Apop.Map.C176_matrix_map_all",
    "Apop.Map.C176_matrix_apply_all",
    "Apop.Map.C176_sums",
    "Apop.Map.C176_count",
    "Apop.Map.C176_null",
    "Apop.Map.C176_ends",
    "Apop.Map.C176_log_exp"
   ],
   "note": ""
  },
  {
   "property": "C177",
   "status": "proved",
   "theorems": [
    "Apop.Db.Session.C177_reopen",
    "Apop.Db.Session.C177_crash",
    "Apop.Db.Session.C177_import",
    "Apop.Db.Session.C177_import_wrapped",
    "Apop.Db.Session.C177_crosstab",
    "Apop.Db.Session.C177_crosstab_wrapped_refuted",
    "Apop.Db.Session.C177_memory",
    "Apop.Db.Session.C177_open_failed_refuted",
    "Apop.Db.Session.C177_open_late",
    "Apop.Db.Session.C177_reopen_locked_refuted",
    "Apop.Db.Session.C177_close",
    "Apop.Db.Session.C177_query"
   ],
   "note": ""
  },
  {
   "property": "C178",
   "status": "proved",
   "theorems": [
    "Apop.Db.Import.C178_new",
    "Apop.Db.Import.C178_append",
    "Apop.Db.Import.C178_delete",
    "Apop.Db.Import.C178_overwrite",
    "Apop.Db.Import.C178_exists_nothing",
    "Apop.Db.Import.C178_columns",
    "Apop.Db.Import.C178_bad_regex_refuted",
    "Apop.Db.Import.C178_query",
    "Apop.Db.Import.C178_others",
    "Apop.Db.Import.C178_kept",
    "Apop.Db.Import.C178_lost_refuted",
    "Apop.Db.Import.C178_width",
    "Apop.Db.Import.C178_row_names_refuted",
    "Apop.Db.Import.C178_case_refuted",
    "Apop.Db.Import.C178_wide",
    "Apop.Db.Import.C178_wide_dropped",
    "Apop.Db.Import.C178_default_name",
    "Apop.Db.Import.C178_stdin_name",
    "Apop.Db.Import.C178_file",
    "Apop.Db.Import.C178_literal"
   ],
   "note": ""
  },
  {
   "property": "C179",
   "status": "proved",
   "theorems": [
    "Apop.Dist.C179_beta_moments",
    "Apop.Dist.C179_gamma_moments",
    "Apop.Dist.C179_beta_from",
    "Apop.Dist.C179_beta_range_refuted",
    "Apop.Dist.C179_beta_refused",
    "Apop.Dist.C179_gamma_estimate",
    "Apop.Dist.C179_beta_estimate",
    "Apop.Dist.C179_lognormal_matrix",
    "Apop.Dist.C179_lognormal_nothing",
    "Apop.Dist.C179_lognormal_both_refuted",
    "Apop.Dist.C179_lognormal_mean",
    "Apop.Dist.C179_lognormal_predict_refuted"
   ],
   "note": ""
  },
  {
   "property": "C180",
   "status": "proved",
   "theorems": [
    "Apop.Conc.C180_draws",
    "Apop.Conc.C180_bad_density",
    "Apop.Conc.C180_warm",
    "Apop.Conc.C180_ends",
    "Apop.Conc.C180_bare_refuted",
    "Apop.Conc.C180_bare_alone",
    "Apop.Conc.C180_cdf_refuted",
    "Apop.Conc.C180_cdf_draw_refuted"
   ],
   "note": ""
  },
  {
   "property": "C181",
   "status": "proved",
   "theorems": [
    "Apop.Sect.C181_no_deadlock",
    "Apop.Sect.C181_all_end",
    "Apop.Sect.C181_exclusive",
    "Apop.Sect.C181_kernel_kernel_refuted",
    "Apop.Sect.C181_cross_refuted",
    "Apop.Sect.C181_chain_chain_refuted"
   ],
   "note": ""
  },
  {
   "property": "C182",
   "status": "proved",
   "theorems": [
    "Apop.RngPar.C182_own",
    "Apop.RngPar.C182_distinct",
    "Apop.RngPar.C182_table",
    "Apop.RngPar.C182_warm",
    "Apop.RngPar.C182_warm_ends",
    "Apop.RngPar.C182_cold_refuted"
   ],
   "note": ""
  },
  {
   "property": "C183",
   "status": "proved",
   "theorems": [
    "Apop.Settings.Owner.C183_mixture_copy_refuted",
    "Apop.Settings.Owner.C183_arms_copy_refuted",
    "Apop.Settings.Owner.C183_loess_copy_refuted",
    "Apop.Settings.Owner.C183_dconstrain_copy_refuted",
    "Apop.Settings.Owner.C183_lost_refuted",
    "Apop.Settings.Owner.C183_user_freed_refuted",
    "Apop.Settings.Owner.C183_kernel",
    "Apop.Settings.Owner.C183_kernel_copy_refuted",
    "Apop.Settings.Owner.C183_mcmc",
    "Apop.Settings.Owner.C183_lm",
    "Apop.Settings.Owner.C183_dconstrain",
    "Apop.Settings.Owner.C183_mixture",
    "Apop.Settings.Owner.C183_arms",
    "Apop.Settings.Owner.C183_loess"
   ],
   "note": ""
  },
  {
   "property": "C184",
   "status": "proved",
   "theorems": [
    "Apop.Fisher.C184_probability",
    "Apop.Fisher.C184_relative_error",
    "Apop.Fisher.C184_above_one_refuted"
   ],
   "note": ""
  },
  {
   "property": "C185",
   "status": "proved",
   "theorems": [
    "Apop.Fisher.F3.C185_fisher_test",
    "Apop.Fisher.F3.C185_fisher_test_exact",
    "Apop.Fisher.C185_p_value",
    "Apop.Fisher.C185_p_value_exact"
   ],
   "note": ""
  },
  {
   "property": "C186",
   "status": "proved",
   "theorems": [
    "Apop.Fisher.C186_room",
    "Apop.Fisher.C186_parity",
    "Apop.Fisher.C186_room_small",
    "Apop.Fisher.C186_overlap_refuted",
    "Apop.Fisher.C186_total_refuted"
   ],
   "note": ""
  },
  {
   "property": "C187",
   "status": "proved",
   "theorems": [
    "Apop.Fisher.C187_two_by_three",
    "Apop.Fisher.C187_one_row",
    "Apop.Fisher.C187_two_columns_no_error",
    "Apop.Fisher.C187_two_columns",
    "Apop.Fisher.C187_two_columns_exact"
   ],
   "note": ""
  },
  {
   "property": "C188",
   "status": "proved",
   "theorems": [
    "Apop.Fisher.C188_keys",
    "Apop.Fisher.C188_zeros",
    "Apop.Fisher.C188_one_column",
    "Apop.Fisher.C188_nan_refuted",
    "Apop.Fisher.C188_truncated",
    "Apop.Fisher.C188_negative"
   ],
   "note": ""
  },
  {
   "property": "C189",
   "status": "proved",
   "theorems": [
    "Apop.DummyOpts.C189_append",
    "Apop.DummyOpts.C189_remove",
    "Apop.DummyOpts.C189_remove_append",
    "Apop.DummyOpts.C189_in_place_all",
    "Apop.DummyOpts.C189_in_place",
    "Apop.DummyOpts.C189_in_place_names_refuted",
    "Apop.DummyOpts.C189_in_place_last_refuted",
    "Apop.DummyOpts.C189_in_place_remove_refuted",
    "Apop.DummyOpts.C189_remove_wide_refuted",
    "Apop.DummyOpts.C189_refused",
    "Apop.DummyOpts.C189_vector_refuted",
    "Apop.DummyOpts.C189_no_matrix_refuted",
    "Apop.DummyOpts.C189_in_place_text_refuted"
   ],
   "note": ""
  },
  {
   "property": "C190",
   "status": "proved",
   "theorems": [
    "Apop.Show.C190_cells",
    "Apop.Show.C190_aligned",
    "Apop.Show.C190_page",
    "Apop.Show.C190_title",
    "Apop.Show.C190_pages",
    "Apop.Show.C190_empty_column_refuted",
    "Apop.Show.C190_extra_names_refuted"
   ],
   "note": ""
  },
  {
   "property": "C191",
   "status": "proved",
   "theorems": [
    "Apop.OlsNames.C191_names_no_vector",
    "Apop.OlsNames.C191_names_with_vector",
    "Apop.OlsNames.C191_lookup",
    "Apop.OlsNames.C191_predicted_residual",
    "Apop.OlsNames.C191_observed_refuted",
    "Apop.OlsNames.C191_empty_first_name_refuted",
    "Apop.OlsNames.C191_unnamed_vector_refuted"
   ],
   "note": ""
  },
  {
   "property": "C192",
   "status": "proved",
   "theorems": [
    "Apop.OlsNames.C192_outcome",
    "Apop.OlsNames.C192_pages",
    "Apop.OlsNames.C192_default",
    "Apop.OlsNames.C192_all_off_refuted",
    "Apop.OlsNames.C192_covariance_only_refuted",
    "Apop.OlsNames.C192_no_expected_refuted"
   ],
   "note": ""
  },
  {
   "property": "C193",
   "status": "proved",
   "theorems": [
    "Apop.Fisher.F3.C193_longest_path"
   ],
   "note": "holds whenever f3xact returns a number"
  },
  {
   "property": "C194",
   "status": "proved",
   "theorems": [
    "Apop.Fisher.F3.C194_reads_before_array_refuted"
   ],
   "note": "the claim is refuted by a witness"
  },
  {
   "property": "C195",
   "status": "proved",
   "theorems": [
    "Apop.Fisher.F3.C195_shortest_path",
    "Apop.Fisher.F3.C195_value",
    "Apop.Fisher.F3.C195_shortest_path_returns",
    "Apop.Fisher.F3.C195_two_by_two_refuted"
   ],
   "note": "C195_two_by_two_refuted: for 2 by 2 the number is a bound but not the length of a path."
  },
  {
   "property": "C196",
   "status": "proved",
   "theorems": [
    "Apop.Fisher.Isort.C196_isort_sorts",
    "Apop.Fisher.Isort.C196_f3xact_sort",
    "Apop.Fisher.Isort.C196_f2xact_sort",
    "Apop.Fisher.Isort.C196_long_vector_refuted"
   ],
   "note": "C196_long_vector_refuted: the bound of 3070 is exact."
  },
  {
   "property": "C197",
   "status": "proved",
   "theorems": [
    "Apop.Rake.C197_variables",
    "Apop.Rake.C197_more_than_six_refuted",
    "Apop.Rake.C197_given_list"
   ],
   "note": "C197_more_than_six_refuted: more than six variables without var_list never works."
  },
  {
   "property": "C198",
   "status": "proved",
   "theorems": [
    "Apop.ParamModel.C198_vector_parameters",
    "Apop.ParamModel.C198_two_by_two",
    "Apop.ParamModel.C198_matrix_refuted"
   ],
   "note": "C198_matrix_refuted: parameters with a matrix that is not 2 by 2."
  },
  {
   "property": "C199",
   "status": "proved",
   "theorems": [
    "Apop.Dist.C199_bernoulli_draw",
    "Apop.Dist.C199_bernoulli_cdf",
    "Apop.Dist.C199_normal_mean_variance",
    "Apop.Dist.C199_normal_page_refuted",
    "Apop.Dist.C199_normal_predict",
    "Apop.Dist.C199_normal_predict_refuted",
    "Apop.Dist.C199_bernoulli_variance",
    "Apop.Dist.C199_bernoulli_page_refuted"
   ],
   "note": "The documented <Covariance> pages are refuted in the three _refuted theorems."
  },
  {
   "property": "C200",
   "status": "proved",
   "theorems": [
    "Apop.Dist.C200_moments",
    "Apop.Dist.C200_likelihood",
    "Apop.Dist.C200_small_refuted",
    "Apop.Dist.C200_both_parts_refuted"
   ],
   "note": "small data and both parts refuted"
  },
  {
   "property": "C201",
   "status": "proved",
   "theorems": [
    "Apop.Mod.C201_first",
    "Apop.Mod.C201_again",
    "Apop.Mod.C201_report_stale",
    "Apop.Mod.C201_t_stale",
    "Apop.Mod.C201_report_refuted",
    "Apop.Mod.C201_t_first",
    "Apop.Mod.C201_t_refuted"
   ],
   "note": "the report and the t distribution refuted for second estimates"
  },
  {
   "property": "C202",
   "status": "proved",
   "theorems": [
    "Apop.DrawRace.C202_one_setup",
    "Apop.DrawRace.C202_ends",
    "Apop.DrawRace.C202_right_chain",
    "Apop.DrawRace.C202_window",
    "Apop.DrawRace.C202_after_first",
    "Apop.DrawRace.C202_race_refuted"
   ],
   "note": "first draws by several threads refuted"
  },
  {
   "property": "C203",
   "status": "proved",
   "theorems": [
    "Apop.BootCov.C203_poisson",
    "Apop.BootCov.C203_declined",
    "Apop.BootCov.C203_page",
    "Apop.BootCov.C203_again_refuted",
    "Apop.BootCov.C203_bernoulli",
    "Apop.BootCov.C203_bernoulli_again_refuted"
   ],
   "note": ""
  },
  {
   "property": "C204",
   "status": "proved",
   "theorems": [
    "Apop.MixDraw.C204_draw",
    "Apop.MixDraw.C204_draws",
    "Apop.MixDraw.C204_odds",
    "Apop.MixDraw.C204_zero",
    "Apop.MixDraw.C204_setup",
    "Apop.MixDraw.C204_stale_refuted",
    "Apop.MixDraw.C204_dsize_refuted"
   ],
   "note": "Model Transform/MixDraw (see DESIGN)."
  },
  {
   "property": "C205",
   "status": "proved",
   "theorems": [
    "Apop.VtRace.C205_calm",
    "Apop.VtRace.C205_registered",
    "Apop.VtRace.C205_one_kind",
    "Apop.VtRace.C205_ends",
    "Apop.VtRace.C205_race_refuted"
   ],
   "note": "See DESIGN."
  },
  {
   "property": "C206",
   "status": "proved",
   "theorems": [
    "Apop.CrossTrip.C206_trip",
    "Apop.CrossTrip.C206_digits",
    "Apop.CrossTrip.C206_counts",
    "Apop.CrossTrip.C206_restored",
    "Apop.CrossTrip.C206_column_lost_refuted",
    "Apop.CrossTrip.C206_error_refuted",
    "Apop.CrossTrip.C206_digits_refuted",
    "Apop.CrossTrip.C206_infinite_refuted",
    "Apop.CrossTrip.C206_quote_refuted",
    "Apop.CrossTrip.C206_nan_refuted",
    "Apop.CrossTrip.C206_twice_refuted"
   ],
   "note": "C206_* in Conv/CrossTrip.lean"
  },
  {
   "property": "C207",
   "status": "proved",
   "theorems": [
    "Apop.Fix.C207_history",
    "Apop.Fix.C207_get_base_refuted",
    "Apop.Fix.C207_fix_again_refuted",
    "Apop.Fix.C207_fixed_twice_refuted"
   ],
   "note": "C207_* in Transform/FixShared.lean"
  },
  {
   "property": "C208",
   "status": "proved",
   "theorems": [
    "Apop.UpdSetup.C208_table",
    "Apop.UpdSetup.C208_later",
    "Apop.UpdSetup.C208_own",
    "Apop.UpdSetup.C208_ends",
    "Apop.UpdSetup.C208_during_refuted"
   ],
   "note": "C208_* in Update/Setup.lean"
  },
  {
   "property": "C209",
   "status": "proved",
   "theorems": [
    "Apop.Db.ToDbWide.C209_row",
    "Apop.Db.ToDbWide.C209_columns",
    "Apop.Db.ToDbWide.C209_all",
    "Apop.Db.ToDbWide.C209_rounding_refuted",
    "Apop.Db.ToDbWide.C209_missing_refuted",
    "Apop.Db.ToDbWide.C209_name_refuted",
    "Apop.Db.ToDbWide.C209_result_refuted"
   ],
   "note": "Creation of the table as in C107; what SQLite does with a statement is arbitrary."
  },
  {
   "property": "C210",
   "status": "proved",
   "theorems": [
    "Apop.Mix.C210_fits",
    "Apop.Mix.C210_em",
    "Apop.Mix.C210_objects",
    "Apop.Mix.C210_stuck_refuted",
    "Apop.Mix.C210_none_refuted"
   ],
   "note": "C210_fits, C210_em: no component objects; C210_objects: the exact vector if one does. Refuted (in the statement): C210_stuck_refuted, C210_none_refuted."
  },
  {
   "property": "C211",
   "status": "proved",
   "theorems": [
    "Apop.Map.C211_names"
   ],
   "note": "C211_names: all parts and functions, including the case of columns, which get no names."
  },
  {
   "property": "C212",
   "status": "proved",
   "theorems": [
    "Apop.Predict.C212_method",
    "Apop.Predict.C212_complete",
    "Apop.Predict.C212_default",
    "Apop.Predict.C212_null_refuted",
    "Apop.Predict.C212_later_pages_refuted"
   ],
   "note": "Model Transform/Predict.lean, on C171. Refuted outside the preconditions: C212_null_refuted (dsize <= 0 with no set), C212_later_pages_refuted."
  },
  {
   "property": "C213",
   "status": "proved",
   "theorems": [
    "Apop.Pmf.FromModel.C213_normalize",
    "Apop.Pmf.FromModel.C213_rows",
    "Apop.Pmf.FromModel.C213_portions",
    "Apop.Pmf.FromModel.C213_weights_refuted",
    "Apop.Pmf.FromModel.C213_uncompressed_refuted"
   ],
   "note": "Model Hist/ToPmf.lean. Refuted: C213_weights_refuted (no weights at all), C213_uncompressed_refuted (apop_p is 1/draws for every bin)."
  },
  {
   "property": "C214",
   "status": "proved",
   "theorems": [
    "Apop.Dist.BetaDraw.C214_beta_draws",
    "Apop.Dist.BetaDraw.C214_beta_never_refuted",
    "Apop.Dist.C214_exponential",
    "Apop.Dist.C214_uniform",
    "Apop.Dist.C214_binomial",
    "Apop.Dist.C214_binomial_negative_refuted",
    "Apop.Dist.C214_beta_point_refuted"
   ],
   "note": "exact reals; GSL's functions as documented"
  },
  {
   "property": "C215",
   "status": "proved",
   "theorems": [
    "Apop.NameMem.C215_blocks",
    "Apop.NameMem.C215_separate",
    "Apop.NameMem.C215_all_freed",
    "Apop.NameMem.C215_title_refuted",
    "Apop.NameMem.C215_copy_refuted",
    "Apop.NameMem.C215_self_refuted"
   ],
   "note": "Model Name/Memory.lean. Refuted: C215_title_refuted, C215_copy_refuted, C215_self_refuted."
  }
 ]
}