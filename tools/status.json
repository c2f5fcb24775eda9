{
"C01": [
"proved",
""
],
"C02": [
"proved",
"The preference clause is stated for structures reachable by the name operations, whose stored hashes are right."
],
"C03": [
"proved",
"Covers the whole statement. Findings, proved: self stack with 'v' (C03_stack_self_vector_ub), \"(null)\" title (in C03_copy)."
],
"C04": [
"proved",
"Covers the whole statement; the deviations from a full copy are theorems (C04_copy_loses_vector_name, C04_copy_null_title), and so is what happens to sets with error flags."
],
"C05": [
"proved",
"Covers the whole statement; the missing detection of longer cycles is proved too (C05_*_longer_cycle_diverges)."
],
"C06": [
"proved",
"Sizes beyond INT_MAX are narrowed (C06_narrowing shows the effect)."
],
"C07": [
"proved",
"Covers the whole statement; h=0 is C07_zero_height_ub."
],
"C08": [
"proved",
""
],
"C09": [
"proved",
"Covers the whole statement, including the overflow (C09_grow_and_narrow_ub)."
],
"C10": [
"proved",
"Covers the whole statement, including C10_huge_position_ub."
],
"C11": [
"proved",
"Covers the whole statement; docs promise -1 for out of range positions (C11_out_of_bounds_returns_zero)."
],
"C17": [
"proved",
"Covers the whole statement; an untitled page before the match makes rm_page compare NULL (C17_rm_untitled_ub)."
],
"C40": [
"proved",
"Covers the whole statement, including the overflow (C40_text_overflow, C40_text_overflow_rows)."
],
"C43": [
"proved",
"NULL names overwrite the last element (C43_null_name_overwrites)."
],
"C12": [
"proved",
"Covers the whole statement. Deviations from the documentation, proved: widths that differ silently drop the matrix (no 'd'), a first set without names dereferences NULL, column names are misplaced when both sets have vectors (C12_width_mismatch_drops_matrix, C12_null_names_ub, C12_vector_name_misplaced)."
],
"C13": [
"proved",
"Covers the whole statement. Deviations proved: vector-only sets overrun (C13_vector_only_overrun), column splits lose text (C13_split_cols_loses_text)."
],
"C14": [
"proved",
"Covers the whole statement. Outside of the precondition, proved: fewer names than rows leave stale names, ragged parts leave stale rows (C14_short_names_stale, C14_ragged_stale)."
],
"C15": [
"proved",
"Covers the whole statement; shorter arrays and unnamed columns are read out of bounds (C15_short_drop_ub, C15_prune_unnamed_ub)."
],
"C16": [
"proved",
"Covers the whole statement. Deviations proved: the in-place version leaves stale name hashes (lookup can be undefined), % in text is used as a format, text names go the wrong way, vector-only sets are lost (C16_in_place_lookup_ub, C16_copy_percent, C16_text_names_backwards, C16_vector_only)."
],
"C23": [
"proved",
"Covers the whole statement; weights longer than the data with a NaN write out of bounds (C23_long_weights_ub)."
],
"C41": [
"proved",
"Covers the whole statement. Against the documentation: C41_rows_view_one_name, C41_rows_out_of_range, C41_negative_length_accepted."
],
"C18": [
"proved",
"Proved for every rectangular set and every permutation, including termination and absence of undefined behaviour."
],
"C19": [
"proved",
"Covers the whole statement. Outside: within ties row names do not move with their rows, mixed-case ties are not sorted further, tied ranks drop a column, a set without columns dereferences NULL (C19_row_names_refuted, C19_mixed_case_refuted, C19_tied_ranks_refuted, C19_no_columns_refuted)."
],
"C20": [
"partial",
"First column descending, ties ascending: proved. The documented all-columns descending order is refuted (C20_descending_refuted)."
],
"C24": [
"proved",
"Covers the whole statement. Names with equal hashes are one group (C24_hash_collision_refuted); copying from a model without settings does not set 's' (C24_copy_missing)."
],
"C25": [
"partial",
"Proved for every history over table names that hash differently and not to zero, taking the entry read past the block to be arbitrary; that read is undefined behaviour and happens on every removal right after a registration (C25_drop_overread_refuted). One thread only."
],
"C44": [
"proved",
"Covers the whole statement; longer names make the copy lose the group and set 's' (C44_long_name_refuted)."
],
"C21": [
"proved",
"Covers the whole statement. Outside of the preconditions the code fails, proved: C21_first_info_refuted, C21_info_pages_refuted, C21_text_page_last_refuted, C21_capital_N_refuted."
],
"C22": [
"proved",
"Counts, bin number and round trip for every data set. Findings: min_bins is ignored when both a vector and a matrix are given (C22_min_bins_ignored); expanding a set with a vector leaves elements unwritten (C22_expand_vector_refuted)."
],
"C36": [
"proved",
"Covers the whole statement. Text with a percent sign, or two strings too few, is undefined (C36_text_percent_refuted, C36_text_too_few_refuted)."
],
"C37": [
"proved",
"For every record list whose keys are among the distinct keys, which the queries guarantee."
],
"C38": [
"partial",
"The property is false whenever a name is made up, for every table size (C38_names_never_fit_refuted); it holds only when no name has to be made up."
],
"C39": [
"proved",
"Finding: with no size given apop_array_to_vector copies one element (sizeof of a pointer)."
],
"C26": [
"proved",
"Covers the whole statement. Against the documentation: C26_prune_inverted_refuted, C26_prune_separators_refuted."
],
"C27": [
"proved",
"Covers the whole statement. With threads the last read is outside the critical section and can be out of bounds (C27_threads_refuted); interleavings that need no longer sums are right (C27_threads_short_sums)."
],
"C28": [
"proved",
"Covers the whole statement. Proved too: C28_empty_match_diverges, C28_nonterminating_refuted; without substrings the count is at most 1 (C28_plain_count_refuted)."
],
"C29": [
"proved",
"Covers the whole statement; rng_seed taken as unbounded. Against the documentation: -1 always means generator 0 (wrong macro name, C29_minus_one_refuted); the last line races with reallocation (C29_race_refuted; not once the largest number was asked for, C29_race_free)."
],
"C30": [
"proved",
"Covers the whole statement. Outside: one empty field alone is a blank line, white delimiters lose empty fields, NUL delimits (C30_single_empty_lost, C30_white_empty_lost, C30_nul_delimits)."
],
"C31": [
"proved",
"Every byte stream, buffer size, delimiter list without byte 255 (not ASCII); fixed width for lines up to the last end (beyond it: C34_long_line_ub)."
],
"C32": [
"proved",
"Covers the whole statement: the second half says where the property one would want (no byte outside the file is ever interpreted) fails."
],
"C33": [
"proved",
"Covers the whole statement. The documentation promises the number of records; C33_return_off, C33_last_line_dropped."
],
"C34": [
"proved",
"Covers the whole statement, including C34_long_line_ub."
],
"C35": [
"proved",
"Covers the whole statement, including C35_apostrophe_no_literal, C35_both_quotes_broken. strtod is a parameter."
],
"C45": [
"proved",
"Covers the whole statement. Short lines leave unwritten cells, long ones add an unwritten row, few header names read out of bounds, header + one unterminated line reads past the end (C45_*). strtod is a parameter."
],
"C46": [
"proved",
"Sets with nonempty parts (C46_new, C46_inplace, C46_pages_inplace, C46_ends). Outside of the stated precondition: C46_m_of_vector_unwritten; inplace='v' with pages crashes (C46_void_pages_crash)."
],
"C47": [
"partial",
"True for vectors; for matrices the index is the column if rows <= columns, else the row (C47_matrix_index), so the documented claim fails (C47_index_depends_on_shape)."
],
"C48": [
"proved",
"Covers the whole statement, including C48_columns_inplace_overrun, C48_row_sets_inplace_no_vector."
],
"C49": [
"proved",
"Covers the whole statement; false for a set with a vector only and a vector function (C49_vector_only_garbage)."
],
"C50": [
"proved",
"Schedules at the grain of draws: a generator is used only by its own thread."
],
"C42": [
"partial",
"Refuted: C42_always_E, for every code; apop_model_draws in particular (C42_draws_null, _dsize_zero, _narrow)."
],
"C51": [
"proved",
"Proved in exact arithmetic over every (ordered) field or the reals; rounding of double/long double is not modelled."
],
"C52": [
"proved",
"Proved in exact arithmetic over every (ordered) field or the reals; rounding of double/long double is not modelled."
],
"C53": [
"proved",
"Proved in exact arithmetic over every (ordered) field or the reals; rounding of double/long double is not modelled."
],
"C54": [
"proved",
"Proved in exact arithmetic over every (ordered) field or the reals; rounding of double/long double is not modelled."
],
"C55": [
"proved",
"Proved in exact arithmetic. The documented claim for rounding 'a' fails (C55_average_not_below), and the literal doc text for 'd' at 100 (C55_above_literal); an empty vector is not caught (C55_empty)."
],
"C57": [
"proved",
"Proved in exact arithmetic over every (ordered) field or the reals; rounding of double/long double is not modelled."
],
"C56": [
"partial",
"Refuted: the code's value for unit-sum weights is derived for all inputs (C56_var, C56_moments) and shown to differ from the documented one (C56_wrong) and to change when data are shifted (C56_shift)."
],
"C58": [
"partial",
"Refuted by C58_biased."
],
"C59": [
"proved",
"exact arithmetic over the reals; no floating-point rounding"
],
"C60": [
"proved",
"exact arithmetic over the reals; no floating-point rounding"
],
"C61": [
"proved",
"exact arithmetic over the reals; no floating-point rounding"
],
"C62": [
"proved",
"exact arithmetic over the reals"
],
"C63": [
"proved",
"exact arithmetic over the reals"
],
"C65": [
"proved",
"exact arithmetic over the reals"
],
"C67": [
"proved",
"exact arithmetic over the reals"
],
"C68": [
"proved",
"all histories of init, copy, use, free; a leak is shown separately"
],
"C64": [
"partial",
"refuted: last row never drawn; what holds (rows in range, other rows equiprobable) is proved"
],
"C66": [
"partial",
"refuted by theorems giving the value returned; right only for absent points and the first weighted row"
],
"C69": [
"partial",
"refuted: stale cumulative mass after a draw; proved for models not drawn from"
],
"C70": [
"proved",
"for every stream of proposals and uniforms; exact arithmetic"
],
"C71": [
"proved",
"whole-period burn-in; C71_overrun shows the defect otherwise"
],
"C72": [
"proved",
"finite state space, no adaptation, no constraint"
],
"C73": [
"proved",
"no info pages; C73_info_page_refuted shows why"
],
"C74": [
"proved",
"proved as stated; the exclusions in the statement are sharp: theorems named _refuted give the counterexamples"
],
"C75": [
"proved",
"proved as stated; the exclusions in the statement are sharp: theorems named _refuted give the counterexamples"
],
"C76": [
"proved",
"proved as stated; the exclusions in the statement are sharp: theorems named _refuted give the counterexamples"
],
"C77": [
"proved",
"proved as stated; the exclusions in the statement are sharp: theorems named _refuted give the counterexamples"
],
"C78": [
"proved",
"proved as stated; the exclusions in the statement are sharp: theorems named _refuted give the counterexamples"
],
"C79": [
"proved",
"counterexamples are in the _refuted theorems"
],
"C80": [
"proved",
"counterexamples are in the _refuted theorems"
],
"C81": [
"proved",
"counterexamples are in the _refuted theorems"
],
"C82": [
"proved",
"counterexamples are in the _refuted theorems"
],
"C83": [
"proved",
"As stated; failing cases as separate _refuted theorems."
],
"C84": [
"proved",
"As stated; failing cases as separate _refuted theorems."
],
"C85": [
"proved",
"As stated; failing cases as separate _refuted theorems."
],
"C86": [
"proved",
"As stated; failing cases as separate _refuted theorems."
],
"C87": [
"proved",
"As stated; failing cases as separate _refuted theorems."
],
"C88": [
"proved",
"As stated; exact arithmetic."
],
"C89": [
"proved",
"As stated; exact arithmetic."
],
"C90": [
"proved",
"As stated; exact arithmetic."
],
"C91": [
"proved",
"c_loglin in exact arithmetic; the queries that build the tables are not modelled."
],
"C92": [
"proved",
"As stated; exact arithmetic; failing cases as separate _refuted theorems."
],
"C93": [
"proved",
"As stated; exact arithmetic; failing cases as separate _refuted theorems."
],
"C94": [
"proved",
"As stated; exact arithmetic; failing cases as separate _refuted theorems."
],
"C95": [
"proved",
"As stated; exact arithmetic; failing cases as separate _refuted theorems."
],
"C97": [
"proved",
"As stated; exact arithmetic; failing cases as separate _refuted theorems."
],
"C98": [
"proved",
"As stated; exact arithmetic; failing cases as separate _refuted theorems."
],
"C99": [
"proved",
"As stated; exact arithmetic; failing cases as separate _refuted theorems."
],
"C100": [
"proved",
"As stated; exact arithmetic; failing cases as separate _refuted theorems."
],
"C102": [
"proved",
"As stated; exact arithmetic; failing cases as separate _refuted theorems."
],
"C103": [
"proved",
"As stated; exact arithmetic; failing cases as separate _refuted theorems."
],
"C96": [
"partial",
"the documented distance is refuted; what is computed, its bounds and the p values are proved"
],
"C101": [
"partial",
"the grouping's sum of squares, total df and p value tail are refuted; the rest is proved"
],
"C104": [
"proved",
"see statement; failing cases are the _refuted theorems"
],
"C105": [
"proved",
"see statement; failing cases are the _refuted theorems"
],
"C106": [
"proved",
"see statement; failing cases are the _refuted theorems"
],
"C107": [
"proved",
"see statement; failing cases are the _refuted theorems"
],
"C108": [
"proved",
"see statement; failing cases are the _refuted theorems"
],
"C109": [
"proved",
"see DESIGN.md"
],
"C110": [
"proved",
"see DESIGN.md"
],
"C111": [
"proved",
"see DESIGN.md"
],
"C112": [
"proved",
"see DESIGN.md"
],
"C113": [
"proved",
"see DESIGN.md"
],
"C114": [
"proved",
"see DESIGN.md"
],
"C115": [
"proved",
"Exact for six decimals, within 5e-7 otherwise; weights, NaN, out of range refuted (C115_weights_refuted, C115_out_of_range_ub, C115_small_lost)."
],
"C116": [
"proved",
"Records of a printed file loaded by apop_text_to_db."
],
"C117": [
"proved",
"Tab: proved; other delimiters refuted (C117_vector_comma_refuted); C117_long_vector_cut, C117_weights_only_nothing."
],
"C118": [
"proved",
"Pipe and one page proved; several pages to a file refuted (C118_pages_reversed, C118_pages_overwritten, C118_pages_lost), default append refuted."
],
"C119": [
"proved",
"see statement for refuted cases"
],
"C120": [
"proved",
"see statement for refuted cases"
],
"C121": [
"proved",
"see statement for refuted cases"
],
"C122": [
"proved",
"see statement for refuted cases"
],
"C123": [
"proved",
"see statement for refuted cases"
],
"C124": [
"proved",
"see statement for refuted cases"
],
"C125": [
"proved",
"see statement for refuted cases"
],
"C126": [
"proved",
"see statement for refuted cases"
],
"C127": [
"proved",
"see statement for refuted cases"
],
"C128": [
"proved",
"see statement for refuted cases"
],
"C129": [
"proved",
"see statement for refuted cases"
],
"C130": [
"proved",
"As stated; cases marked refuted in the statement are separate _refuted theorems."
],
"C131": [
"proved",
"As stated; cases marked refuted in the statement are separate _refuted theorems."
],
"C132": [
"proved",
"As stated; cases marked refuted in the statement are separate _refuted theorems."
],
"C134": [
"proved",
"As stated; cases marked refuted in the statement are separate _refuted theorems."
],
"C135": [
"proved",
"As stated; cases marked refuted in the statement are separate _refuted theorems."
],
"C137": [
"proved",
"As stated; cases marked refuted in the statement are separate _refuted theorems."
],
"C138": [
"proved",
"As stated; cases marked refuted in the statement are separate _refuted theorems."
],
"C139": [
"proved",
"As stated; cases marked refuted in the statement are separate _refuted theorems."
],
"C140": [
"proved",
"As stated; cases marked refuted in the statement are separate _refuted theorems."
],
"C141": [
"proved",
"As stated; cases marked refuted in the statement are separate _refuted theorems."
],
"C142": [
"proved",
"As stated; cases marked refuted in the statement are separate _refuted theorems."
],
"C143": [
"proved",
"As stated; cases marked refuted in the statement are separate _refuted theorems."
],
"C144": [
"proved",
"As stated; cases marked refuted in the statement are separate _refuted theorems."
],
"C145": [
"proved",
"As stated; cases marked refuted in the statement are separate _refuted theorems."
],
"C133": [
"partial",
"Sum of binary probits proved, with the one column actually used; the documented column per category is refuted."
],
"C136": [
"partial",
"Weights proved; writing of the category, size of the output and the inputs are refuted."
],
"C146": [
"proved",
"n=2 with three bins, totals and short rows: refuted theorems, as in the statement"
],
"C147": [
"proved",
"documented variance of the estimates refuted by C147_variance_refuted"
],
"C148": [
"proved",
"gsl_ran_binomial taken by its documented law"
],
"C149": [
"proved",
"idealised uniform reals and exact arithmetic; overflow shown by C149_overflow_refuted, C149_one_refuted"
],
"C150": [
"proved",
"idealised uniform reals; unchecked parameter: C150_parameter_refuted"
],
"C151": [
"proved",
"GSL normal/t laws by documentation"
],
"C152": [
"proved",
"exact arithmetic; uniform numbers idealised; see Verif/Arms"
],
"C153": [
"proved",
"exact arithmetic; uniform numbers idealised; see Verif/Arms"
],
"C154": [
"proved",
"exact arithmetic; uniform numbers idealised; see Verif/Arms"
],
"C155": [
"proved",
"exact arithmetic; uniform numbers idealised; see Verif/Arms"
],
"C156": [
"proved",
"see statement; failing cases as _refuted theorems"
],
"C157": [
"proved",
"see statement; failing cases as _refuted theorems"
],
"C158": [
"proved",
"see statement; failing cases as _refuted theorems"
],
"C159": [
"proved",
"see statement; failing cases as _refuted theorems"
],
"C160": [
"proved",
"see statement; failing cases as _refuted theorems"
],
"C161": [
"proved",
"see statement; failing cases as _refuted theorems"
],
"C162": [
"proved",
"see DESIGN row"
],
"C163": [
"proved",
"see DESIGN row"
],
"C164": [
"proved",
"see DESIGN row"
],
"C165": [
"proved",
"see DESIGN row"
],
"C166": [
"proved",
"see DESIGN row"
],
"C193": [
"proved",
"holds whenever f3xact returns a number"
],
"C194": [
"proved",
"the claim is refuted by a witness"
],
"C195": [
"proved",
"C195_two_by_two_refuted: for 2 by 2 the number is a bound but not the length of a path."
],
"C196": [
"proved",
"C196_long_vector_refuted: the bound of 3070 is exact."
],
"C197": [
"proved",
"C197_more_than_six_refuted: more than six variables without var_list never works."
],
"C198": [
"proved",
"C198_matrix_refuted: parameters with a matrix that is not 2 by 2."
],
"C199": [
"proved",
"The documented <Covariance> pages are refuted in the three _refuted theorems."
],
"C200": [
"proved",
"small data and both parts refuted"
],
"C201": [
"proved",
"the report and the t distribution refuted for second estimates"
],
"C202": [
"proved",
"first draws by several threads refuted"
],
"C192": [
"proved",
""
],
"C206": [
"proved",
"C206_* in Conv/CrossTrip.lean"
],
"C207": [
"proved",
"C207_* in Transform/FixShared.lean"
],
"C208": [
"proved",
"C208_* in Update/Setup.lean"
],
"C205": [
"proved",
"See DESIGN."
],
"C209": [
"proved",
"Creation of the table as in C107; what SQLite does with a statement is arbitrary."
],
"C210": [
"proved",
"C210_fits, C210_em: no component objects; C210_objects: the exact vector if one does. Refuted (in the statement): C210_stuck_refuted, C210_none_refuted."
],
"C211": [
"proved",
"C211_names: all parts and functions, including the case of columns, which get no names."
],
"C212": [
"proved",
"Model Transform/Predict.lean, on C171. Refuted outside the preconditions: C212_null_refuted (dsize <= 0 with no set), C212_later_pages_refuted."
],
"C213": [
"proved",
"Model Hist/ToPmf.lean. Refuted: C213_weights_refuted (no weights at all), C213_uncompressed_refuted (apop_p is 1/draws for every bin)."
],
"C214": [
"proved",
"exact reals; GSL's functions as documented"
],
"C204": [
"proved",
"Model Transform/MixDraw (see DESIGN)."
],
"C215": [
"proved",
"Model Name/Memory.lean. Refuted: C215_title_refuted, C215_copy_refuted, C215_self_refuted."
]
}