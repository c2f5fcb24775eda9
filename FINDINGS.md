# Findings

Behaviour of the code that contradicts its documentation, or that a user would not expect. Each line is a theorem. Generated by tools/findings.py from the comments on the theorems.

## C01
* `C01_add_names_null_refuted` (Name/AddNames.lean): A NULL among the strings ends them: those after it are not added. `apop_anova` gives row names in this way (apop_tests.m4.c:328).
* `C01_add_names_unended_refuted` (Name/AddNames.lean): An array for `apop_data_add_names_base` without a NULL at the end is read past its end.

## C03
* `C03_stack_self_vector_ub` (Name/Props.lean): (finding). Self-stacking the *vector name* reads memory that `realloc` may have freed.
* `C03_copy` (Name/Props.lean): (copy). The copy has equal lists and vector name, hash blocks in step, and the same title -- except that a missing title becomes the string "(null)" (finding).

## C04
* `C04_copy_loses_vector_name` (Data/CopyProps.lean): (finding): the copy never has a vector name, whatever the original had.
* `C04_copy_null_title` (Data/CopyProps.lean): (finding): a page without a title gets the title "(null)".
* `C04_copy_error_on_later_page` (Data/CopyProps.lean): (finding): if some *later* page carries an error flag, the first page of the copy is empty: only the flag is copied ("If the input data set has an error, then I will copy it anyway" in the documentation).
* `C04_copy_error_with_text` (Data/CopyProps.lean): (finding): a page with both an error flag and a text grid is returned with its numeric parts uninitialised (the copy is abandoned after allocation).

## C05
* `C05_free_longer_cycle_diverges` (Pages/Props.lean): (finding): freeing a page on a longer cycle never returns, whatever the recursion depth allowed.
* `C05_copy_longer_cycle_diverges` (Pages/Props.lean): (finding): so does copying it.

## C06
* `C06_narrowing` (Data/CopyProps.lean): (finding): a 5 x 2^32 matrix silently becomes no matrix at all (size2 is narrowed to an int).

## C07
* `C07_zero_height_ub` (Realloc/Props.lean): (finding): asking for zero rows and more columns runs a loop from 2^64-1 and writes before the block.

## C09
* `C09_grow_and_narrow_ub` (Text/Props.lean): (finding). Adding rows while removing columns of an existing grid overruns the freshly allocated rows: each gets `col` pointers and `cols_now > col` are written.

## C10
* `C10_huge_position_ub` (Text/Props.lean): (finding). Row `(size_t)-1` passes the bounds check of every grid (its successor as an int is 0), so `apop_text_set(d, -1, 0, ..)` accesses memory outside the grid instead of returning -1.

## C11
* `C11_out_of_bounds_returns_zero` (Access/Props.lean): (finding): a position outside an existing vector or matrix writes nothing, but set returns 0, not the documented -1.

## C12
* `C12_width_mismatch_drops_matrix` (Stack/Props.lean): (finding): matrices of different widths: the documentation promises error 'd'; the result has *no matrix* (also in place, where the caller's matrix is lost) and no error flag.
* `C12_null_names_ub` (Stack/Props.lean): (finding): a first set without a names structure and a second one with row names: NULL dereference.
* `C12_vector_name_misplaced` (Stack/Props.lean): (finding): stacking columns when both sets have a named vector and named columns. The vector of `m2` becomes column 2, but its name is not added to the column names (`apop_name_stack` with typeadd 'v' overwrites the *vector* name of the target): the vector of `m1` is now called "vec", and looking up "five" finds the data of "vec".
* `C12_two_by_two_refuted` (Stack/TwoByTwo.lean): If the widths don't agree, the lower two are left out: what is given back is the upper two, without an error.

## C13
* `C13_vector_only_overrun` (Stack/SplitProps.lean): (finding): for a data set with a vector but no matrix, a split point at or beyond the end is not caught: GSL is asked for a subvector out of range (documented result: a copy and NULL).
* `C13_split_cols_loses_text` (Stack/SplitProps.lean): (finding): a column split drops the text of the data set; both outputs have none, so the text cannot be recovered by stacking.

## C14
* `C14_short_names_stale` (Rows/Props.lean): (finding): with a row name for the first row only, dropping that row leaves the dropped row's name on the row that moves up (so "each with its own row-name entries" fails).
* `C14_ragged_stale` (Rows/Props.lean): (finding): with a vector longer than the matrix, dropping row 0 moves the vector elements up but leaves the dropped row's matrix row in place, now beside another row's vector element.

## C15
* `C15_short_drop_ub` (Rows/ColProps.lean): (finding): a drop array with fewer entries than the matrix has columns is read out of bounds.
* `C15_prune_unnamed_ub` (Rows/ColProps.lean): (finding): `rm_list` has one entry per *name*; with fewer names than columns it is read out of bounds.

## C16
* `C16_in_place_lookup_ub` (Transpose/Props.lean): The in-place call exchanges the lists but not the hashes: afterwards a lookup can run off the hash block. Here a set built by adds (rows a, b; column x).

## C17
* `C17_rm_untitled_ub` (Pages/Props.lean): (finding): an untitled page met before a match makes apop_data_rm_page compare a NULL string, although apop_data_get_page copes with untitled pages.

## C19
* `C19_tied_ranks_refuted` (Sort/Props.lean): fails on tied ranks. "Ties are broken by the earlier element": in fact, the later column is not used at all.
* `C19_row_names_refuted` (Sort/Props.lean): fails with row names. Within a block of ties the row names do not move with their rows: afterwards the row holding 4 is called "nine".
* `C19_mixed_case_refuted` (Sort/Props.lean): fails on mixed case. The first key ties ("A" and "a" are equal for `strcasecmp`), but the block is not sorted by the second key.
* `C19_no_columns_refuted` (Sort/Props.lean): fails on a set without columns: the sort dereferences NULL.

## C20
* `C20_descending_refuted` (Sort/Props.lean): is refuted for two columns: sorting (1,4), (1,9) in descending order leaves 4 before 9.

## C21
* `C21_first_info_refuted` (Pack/Props.lean): The claim fails when the *first* page is an info page and info pages are not asked for: the page is left out of the count and yet written, here past the end of the vector.
* `C21_info_pages_refuted` (Pack/Props.lean): The claim fails with `.use_info_pages='y'` when an info page comes third or later: packing includes it, unpacking skips it, so page "c" gets the info page's number.
* `C21_text_page_last_refuted` (Pack/Props.lean): The claim fails when the last page has no numbers (a text page, say): GSL's range check is violated.
* `C21_capital_N_refuted` (Pack/Props.lean): Any other character for `.use_info_pages`, 'N' for one, counts as "no" for the size and as "yes" for the writing.

## C22
* `C22_expand_vector_refuted` (Conv/Props.lean): A data set with a vector of counts beside the matrix gets elements that are never written; one with a vector of counts only dereferences NULL.

## C23
* `C23_long_weights_ub` (Rows/Props.lean): (finding): a weights vector longer than the data with a NaN beyond the data's end is marked outside the array: undefined behaviour.

## C24
* `C24_hash_collision_refuted` (Settings/Props.lean): fails for names with equal hashes: after adding "BY", getting "Az" returns the group of "BY", and adding "Az" frees it.

## C25
* `C25_drop_overread_refuted` (Vtable/Props.lean): The claim is false as it stands: whatever the sound registry, removing a function just registered under a new key reads an entry past the allocated block.

## C26
* `C26_prune_inverted_refuted` (Asst/Paste.lean): The prune function works the wrong way round: the cells for which it returns nonzero are the only ones kept. Here the documented example, "just use column 3" (with column 1 here), prunes exactly the wanted column.
* `C26_prune_separators_refuted` (Asst/Paste.lean): With the sense of the prune function taken as it is, a separator is left at the end of the line if the last column is dropped, and no separator is put around a row that is dropped whole.

## C27
* `C27_threads_refuted` (Asst/Harmonic.lean): With two threads the last line, outside the critical section, can read past the block: thread 0 asks for 3 terms and is interrupted after the critical section, thread 1 asks for 2 and shrinks the block.

## C28
* `C28_nonterminating_refuted` (Asst/Regex.lean): `apop_regex("b", "(a*)", &subs)` does not end: however long it runs, it is still running.
* `C28_plain_count_refuted` (Asst/Regex.lean): Without substrings the return value is not the number of matches: it is 1 if there is any, here where there are two.

## C29
* `C29_minus_one_refuted` (Asst/Rng.lean): `-1` does not give each thread its own generator: for every state and any two threads it is the same one.
* `C29_negative_ub` (Asst/Rng.lean): A number below -1 is an access before the array.
* `C29_race_refuted` (Asst/Rng.lean): Another thread's first request can move the array between the load and the read.

## C32
* `C32_no_data_ub` (Parse/Files.lean): Files with no data at all (empty, or only blank lines and comments): both functions read on after the end, in memory never written.
* `C32_empty_ub` (Parse/Files.lean): The empty file.
* `C32_header_only_ub` (Parse/Files.lean): Header-only files: the search for the first data line goes on after the end.
* `C32_single_unterminated_ub` (Parse/Files.lean): A single data line without a newline: `apop_text_to_db` inserts it, and then reads on after the end.
* `C32_last_comment_ub` (Parse/Files.lean): A comment on the last line hides the end of the file: a data line, then a comment without a newline; the next line is read after the end.
* `C32_after_end_ub` (Parse/Stream.lean): A file shorter than the buffer: after the end has been read once, the next read is of memory never written.

## C34
* `C34_long_line_ub` (Parse/Fixed.lean): A line longer than the last end: the array of ends is read past its end.

## C36
* `C36_too_few_ub` (Conv/FillProps.lean): With fewer values than cells, memory past the list is read.
* `C36_text_too_few_refuted` (Conv/FillProps.lean): With two strings too few (`text` is the list and its terminating NULL), memory past the list is read, where the documentation says filling stops.
* `C36_text_percent_refuted` (Conv/FillProps.lean): A percent sign in a string is a conversion without an argument: undefined.

## C38
* `C38_names_never_fit_refuted` (Conv/Props.lean): is false for every table: whatever the number of rows `m > 0`, if fewer than `m` row names are given, making up the last name writes past the buffer (`log` is the rounded down logarithm of `m`).

## C40
* `C40_text_overflow` (Data/CopyProps.lean): (finding): copying a 2x1 text grid into a data set with a 1x1 grid writes outside the target's grid instead of setting error 'd': the size check compares the source with itself.
* `C40_text_overflow_rows` (Data/CopyProps.lean): (finding, general): whenever the source grid (nonempty, well formed) has more rows than the target's and every numeric part fits, memcpy runs outside the target.

## C41
* `C41_negative_length_accepted` (Views/Props.lean): (finding): a negative length is not rejected when `start + len` is nonnegative: the view announces about 2^64 elements.
* `C41_rows_view_one_name` (Views/Props.lean): (finding): a view of several rows has only the first of their names.
* `C41_rows_out_of_range` (Views/Props.lean): (finding): a row out of range does not give NULL but a set whose data parts are NULL.

## C43
* `C43_null_name_overwrites` (Access/Props.lean): (finding): adding a NULL name to a set that has named elements overwrites the last one.

## C44
* `C44_long_name_refuted` (Settings/Props.lean): fails for names longer than 100 bytes: the copy looks the group up by its truncated name, does not find it, and flags error 's'.

## C45
* `C45_few_names_ub` (Parse/DataFile.lean): A header with fewer names than the first data line has fields: names are read past the end of the list.
* `C45_only_line_unterminated_ub` (Parse/DataFile.lean): A header and one data line without a newline: the end of the file seen while reading that line is forgotten, and the next line is read after it.

## C73
* `C73_info_page_refuted` (Mcmc/Blocks.lean): Info pages are not packed, but they are counted as blocks: here the last block starts at the end of the packed vector and a draw for it is written past the end.

## C74
* `C74_beta_outside_refuted` (Dist/LogLik.lean): Beta: a number outside [0, 1] has density zero, but to the log likelihood it contributes as if its density were 1/B(a, b), here 6.
* `C74_gamma_zero_refuted` (Dist/LogLik.lean): Gamma: a zero is left out altogether, whatever the parameters, rather than given its density (here, with a = 1, the density at zero is 1/b = 1/2).
* `C74_exponential_negative_refuted` (Dist/LogLik.lean): Exponential: a negative number has density zero, but is given a log likelihood, and a higher one than any in the support.

## C75
* `C75_poisson_vector_refuted` (Dist/Score.lean): With the counts in the vector, the Poisson score is wrong: it is minus the number of observations whatever they are; the derivative at 1 for one observation of 2 is 1.
* `C75_gamma_zero_refuted` (Dist/Score.lean): A zero is left out of the gamma's log likelihood, but not out of its score: here the log likelihood is constant in b, the score is not zero.

## C76
* `C76_exponential_both_refuted` (Dist/Estimate.lean): With a vector and a matrix, the estimate of the exponential leaves the matrix out: 1/2 for the numbers 1 and 3, whose mean, 2, is more likely.
* `C76_normal_vector_refuted` (Dist/Estimate.lean): For the same numbers in a vector the standard deviation is the square root of the sample variance (over n - 1), which is not the most likely: for 0 and 2 it is √2, and 1 is more likely.

## C77
* `C77_gamma_exponential_wide_refuted` (Dist/Update.lean): With two numbers in a row the shape of the exponential's posterior counts rows, not numbers: it is not the posterior.
* `C77_gamma_poisson_wide_refuted` (Dist/Update.lean): And the Poisson's posterior has the wrong scale.

## C78
* `C78_gamma_both_refuted` (Dist/Moments.lean): With a vector and a matrix, the gamma's variance leaves out the difference between the two parts: for 1, 1 in a vector and 3, 3 in a matrix it is zero.
* `C78_beta_both_refuted` (Dist/Moments.lean): With a vector and a matrix, the beta's mean and variance are both zero, whatever the data: the integer quotients are.

## C79
* `C79_second_page_refuted` (Transform/FixParams.lean): With a NaN on the second page, the value is read back from the first.

## C80
* `C80_copy_refuted` (Transform/Dconstrain.lean): A copy can be left with a scale that is out of date.

## C81
* `C81_loglik_refuted` (Transform/Mixture.lean): As documented each observation would count with its probability under the most likely component times that component's weight; the code adds the weight itself, not its log. A mixture of one model, of weight one, has one more for each observation than the model's own log likelihood.
* `C81_unpack_refuted` (Transform/Mixture.lean): A component without parameters (a PMF) before others: their values are not passed on.
* `C81_constraint_refuted` (Transform/Mixture.lean): The constraint check writes the components' parameters over the weights.

## C82
* `C82_one_refuted` (Transform/Cross.lean): Beside C82. One model, which the message says is copied, is not: the code copies the NULL after it.
* `C82_rows_refuted` (Transform/Cross.lean): Beside C82. Data read as draws (rows of both models' numbers) give the second model its part of the row only if there are exactly as many rows as numbers in that part: with fewer rows it is cut short, with more the subvector leaves the row.
* `C82_nested_refuted` (Transform/Cross.lean): A split node whose first model is itself a cross product takes that path whenever the first page has a matrix at all.

## C83
* `C83_no_rows_refuted` (Regress/Unique.lean): Beside C83. A text column without rows is read before its first row.

## C84
* `C84_old_list_refuted` (Regress/Factors.lean): fails with a list of categories already there that lacks a value: the value is added at the end, where the search by halves does not look, so that the same number is added again and again: two rows of 1 get two categories.
* `C84_unwritten_refuted` (Regress/Factors.lean): And with the first category dropped, as is the default, a cell is left that nothing has written (the second row is of category 3, and should be 1, 0).
* `C84_data_lost_refuted` (Regress/Factors.lean): Making factors of numbers by such a list changes the shape of the data: a matrix of five columns is cut to three, one of which is set to zero.
* `C84_vector_refuted` (Regress/Factors.lean): Beside C84. Dummies from the vector are refused exactly when there is a vector.
* `C84_new_vector_refuted` (Regress/Factors.lean): Beside C84. Two rows and one column: past the end of the vector.

## C86
* `C86_residual_refuted` (Regress/Ols.lean): (residuals) fails as documented: "the third column is always the first minus the second" is so only where they are equal.

## C87
* `C87_adjusted_refuted` (Regress/Ols.lean): The usual adjusted R², 1 - (1 - R²)(n - 1)/(n - p - 1), is not what is given, unless the fit is perfect.
* `C87_weighted_refuted` (Regress/Ols.lean): (weighted) fails: after weighted least squares the SSE is the sum of the squared weights times the squared errors, the page's residuals having the weights in already.

## C88
* `C88_margin_refuted` (Opt/LinearConstraint.lean): (margin) fails otherwise: the point ends at `margin` times the *third power* of the length of the constraint's vector inside the border, not at `margin`. For any constraint that binds:
* `C88_several_refuted` (Opt/LinearConstraint.lean): (several constraints) fails: with the constraints 0 ≤ -3x - 3y and 0 ≤ y the point (1, -1) is moved to (17/35, -17/35), which does not meet the second. (The cosine is found with squared lengths for lengths.)
* `C88_history_refuted` (Opt/LinearConstraint.lean): (history) fails: what was found in an earlier call is kept if it is nearer than what is found now, though it may not meet the constraints now in force. For any constraints, and any scratch point nearer than the one point all candidates agree on:
* `C88_history_case_refuted` (Opt/LinearConstraint.lean): So it happens: after a call with the default constraint at (-1, 5), one with 3 ≤ x and 0 ≤ y at the same point gives (0, 5).

## C89
* `C89_scale_refuted` (Opt/Jackknife.lean): (scale) fails: the usual jackknife variance, that of the pseudovalues over n, for the mean is the sample variance over n; this is n/(n - 1) times too much (unless all elements are the same).

## C90
* `C90_kept_refuted` (Opt/Bootstrap.lean): (NaNs kept) fails. Documented: with NaNs not passed over, "I will write that set of statistics to the list, NaN and all". But a row with a NaN is never written: here the second of two estimates is NaN, and the second row is left as it was allocated.
* `C90_first_refuted` (Opt/Bootstrap.lean): If the first estimate has a NaN, and a later one has not, the matrix is used though never allocated.
* `C90_error_refuted` (Opt/Bootstrap.lean): The documented error for nothing but NaNs is 'N'; it is 'E'.

## C91
* `C91_error_refuted` (Rake/Props.lean): (error, refuted). That a raking that ran out of rounds is marked with the error 'c' is false: here, for any number of rounds and any tolerance up to 1, the row totals are 2 and 2 instead of 1 and 3, and no error is set.
* `C91_error_met_refuted` (Rake/Props.lean): (error, refuted). And a raking that met the tolerance may be marked: the margin table itself as the initial table, one round.

## C92
* `C92_wide_refuted` (Hist/MovingAverage.lean): (too wide) fails: with a window longer than the vector by more than one, NULL should be returned; but sizes are unsigned, and the result is always the attempt to allocate some 2^64 elements.

## C93
* `C93_constant_refuted` (Hist/Bins.lean): (one value) fails: a column all of one value, without a specification, is all NaN.
* `C93_zero_refuted` (Hist/Bins.lean): (closed top of given bins) fails: with a specification and `close_top_bin='y'`, it is the value zero that is moved down a bin, whatever the data's greatest element: with bins of width w (at least 2ε) and an offset of -m w, zero is put in the bin below its own.
* `C93_top_rounded_refuted` (Hist/Bins.lean): (closed top, rounded) fails: in double precision, for data whose range is at least 8 (and can be represented), the adjustment is lost in rounding, and the greatest element is by itself in a bin above the last. Here for `c` bins, the range and the least element such that the range is found without rounding.

## C95
* `C95_zero_refuted` (Hist/Kolmogorov.lean): (no data) fails: with an exponent of zero, as for a data set without rows, there is no end.

## C96
* `C96_below_refuted` (Hist/Ks.lean): (the statistic) fails: the sample's distribution function jumps at an observation, and only the upper end is looked at. One observation, at 9/10, and a uniform distribution: the difference comes as near as wanted to 9/10, what is given is 1/10.
* `C96_two_samples_refuted` (Hist/Ks.lean): (two samples) fails. For two samples without weights that have no observation in common, wherever they are, the distance given is 1, the greatest there can be: the CDF of a PMF is zero at points it does not have.
* `C96_second_loop_refuted` (Hist/Ks.lean): (two samples, a CDF that is right) fails too: the second loop compares the second model with itself. If the CDF of the second sample were given rightly, and all its observations were below all of the first's, the distance would be that at the first's observations only: here 0, where the two functions are 1 apart.

## C97
* `C97_skipped_refuted` (Hist/GoodnessOfFit.lean): (the sum over all bins) fails: the sum documented is over all bins, and one without observation has (0 - e)²/e = e. What is given is smaller by the expected values of the bins without observations.
* `C97_empty_bin_refuted` (Hist/GoodnessOfFit.lean): So a model that puts half the mass where nothing was ever observed can be a perfect fit: two bins, half expected in each, and one half, the whole, observed in the first.
* `C97_normalised_refuted` (Hist/GoodnessOfFit.lean): (Pearson's statistic) fails: for weights that sum to one, as for histograms that have been normalised, what is given is Pearson's statistic divided by the number of observations: so, however many the observations, χ²'s upper tail is taken at a point that is too low.
* `C97_counts_refuted` (Hist/GoodnessOfFit.lean): (counts) fails: for weights that are counts, in perfect proportion to the expected values, Pearson's statistic is zero, and what is given is the square of the number of observations less one.

## C98
* `C98_statistic_refuted` (Tests/TTest.lean): (the t statistic) fails: the variances, which have the size less one as divisor already, are divided by it, not by the size. For two samples of the same size n the result is the t statistic times the root of (n - 1)/n: too near zero.

## C99
* `C99_df_refuted` (Tests/FTest.lean): (degrees of freedom) fails: documented is the number of rows less the number of *parameters*. With the default hypotheses, all parameters but the constant term zero, of which there is one fewer than parameters, the second degrees of freedom are one too many, and the statistic is too big by that ratio.
* `C99_constant_refuted` (Tests/FTest.lean): (the constant term) fails: for the hypothesis that the constant term is zero, with the regressor 1, 2, 3, the code divides by 1/3, its variance if the regressor's mean were zero, and not by 7/3: the form is 3β² and should be 3β²/7.
* `C99_contrast_refuted` (Tests/FTest.lean): (the user's hypotheses) fails: a set of hypotheses with a matrix only comes back with a pointer to a vector that has been freed, and one with a vector only with a matrix put into it. Only a set with both is left as it was.

## C100
* `C100_empty_row_refuted` (Tests/Independence.lean): (a row or column without observations) fails: the result is not a number.
* `C100_fraction_refuted` (Tests/Independence.lean): (tables that do not sum to a whole number) fails: the documentation says that the elements "don't have to sum to one". The total is cut down to a whole number n, so that a table in which rows and columns are independent has the statistic (total - n)²/n, and not zero.
* `C100_below_one_refuted` (Tests/Independence.lean): (shares) fails: for a table whose total is below one, nothing at all.
* `C100_one_row_refuted` (Tests/Independence.lean): (one row) fails: documented is that the null hypothesis is "that all cells are equally likely". For a table of one row the statistic is zero, whatever is in the cells.
* `C100_one_column_refuted` (Tests/Independence.lean): (one column) fails: a table of one column has as many degrees of freedom as rows, one more than a table of one row of the same length has.

## C101
* `C101_between_refuted` (Tests/Anova.lean): (the grouping's sum of squares) fails: what is given is the population variance of the *first* group times the number of groups less one. So, whatever the other groups hold, a first group without variance has a sum of squares and an F ratio of zero.
* `C101_example_refuted` (Tests/Anova.lean): For the groups 0, 0 and 2, 2, which differ by nothing but the group, the grouping's sum of squares should be 4 and the residual's 0. It is the other way round.
* `C101_df_refuted` (Tests/Anova.lean): (degrees of freedom) fails: the total has as many as rows, and should have one less, and the residual the rows less the groups *plus one*, and should have the rows less the groups.
* `C101_tails_refuted` (Tests/Anova.lean): (p value) fails: the p value is the *lower* tail of the F distribution, and the confidence the upper: the two are exchanged. So the larger the F ratio, the larger the p value. For any table whose F ratio is a number:

## C102
* `C102_normal_refuted` (Tests/Lookup.lean): (one tail of the normal) fails: the tails are exchanged: with `u` the result is the mass *below* the statistic, with `l` that above it.
* `C102_uniform_refuted` (Tests/Lookup.lean): (two tails of the uniform) fails: for a statistic anywhere in the standard uniform distribution's range the p value is 2 - 2|s - 1/2|, one or more, and two in the middle.
* `C102_null_refuted` (Tests/Lookup.lean): (no distribution) fails: a NULL pointer is read, though it stands in the documentation as the first example, for the standard normal distribution.
* `C102_zero_refuted` (Tests/Lookup.lean): (no answer) fails: a name that is not known, and a two-tailed test of a distribution that has none, give the p value 0: as significant as can be.
* `C102_lognormal_refuted` (Tests/Lookup.lean): (lognormal defaults) fails: documented are 0 and 1; the second stays zero.

## C103
* `C103_variance_refuted` (Db/Aggregates.lean): So `var` and `variance` do not "do the same thing": the one is n/(n - 1) times the other.
* `C103_kurtosis_refuted` (Db/Aggregates.lean): (kurtosis) fails: what `kurt` and `kurtosis` give is neither the fourth central moment nor what `apop_vector_kurtosis` gives, though documented as the same: the divisor is n³ and not (n - 1)³, and the variance's part is added and not taken away. For the numbers 0 and 1: 11/32, where the moment is 1/16 and `apop_vector_kurtosis` gives -1/4.
* `C103_null_refuted` (Db/Aggregates.lean): (NULLs) fails: SQL's own aggregates, `count(x)` and `avg(x)`, leave NULLs out. For these, each NULL is a zero, for any function and any rows.
* `C103_null_example_refuted` (Db/Aggregates.lean): So the variance of a column that holds 3, 3 and a NULL is 3, and not 0.

## C104
* `C104_null_name_refuted` (Db/ToData.lean): (NULL row names) fails: a NULL in the column with the names adds no name, so that the rows after it have the next rows' names. For any answer, the names number the rows whose name is not NULL; here the name of the second row is at the first, and the second has none.
* `C104_vector_refuted` (Db/ToData.lean): (vectors of failed queries) fails: if the database could not run the query, or the only column is that with the names, the vector function reads a NULL pointer, where NULL is documented.

## C105
* `C105_format_refuted` (Db/ToText.lean): (percent signs) fails: the strings are used as formats. A cell with a percent sign that is not followed by another is undefined behaviour, in any row, however good the rows before are; and two percent signs become one.
* `C105_percent_refuted` (Db/ToText.lean): Strings that are undefined as formats: `%s` alone, `100%`; and two percent signs are printed as one.
* `C105_only_names_refuted` (Db/ToText.lean): (only names) fails: if the only column is that with the names, the result is NULL, as if there were no rows, and the names are lost.

## C106
* `C106_one_more_refuted` (Db/Mixed.lean): (too many columns) fails. The documentation says that the columns beyond the letters go to the text. With one more, SQLite is stopped after the first row, the error is `d`, the data set has that row only, as if the last column were not there.
* `C106_many_more_refuted` (Db/Mixed.lean): (many more columns) fails: with two more columns or more than letters, the code reads past the end of the list of letters.
* `C106_two_names_refuted` (Db/Mixed.lean): (two columns of names) fails: the message says that all but the last are ignored; both are added, so that the names are no longer those of the rows.

## C107
* `C107_text_names_refuted` (Db/ToDb.lean): A data set with text alone and a name for each row does not use them: a case of `C107_names_refuted`.
* `C107_names_refuted` (Db/ToDb.lean): (names without their column) fails: if there are row names, but not as many as the matrix or the vector has rows — as in every data set that has only text — or if the name of their column is not set, the statement has one value more than the table columns: the table is created, nothing is written in it, and the result is -1.
* `C107_empty_name_refuted` (Db/ToDb.lean): (an empty row name) fails: of a data set with weights, where everything else is right, the rows before the first empty name are written; at that row all values are bound one field too far, and the function gives up with -1.
* `C107_ragged_refuted` (Db/ToDb.lean): (parts of unequal length) fails: where a vector is shorter than the matrix, the elements of the matrix in the later rows are written one column too far to the left.
* `C107_weights_refuted` (Db/ToDb.lean): (weights alone) fails: the weights' length is not looked at, so that a data set that has only weights gives a table without rows, and the result is 0.

## C108
* `C108_case_refuted` (Db/ToDb.lean): (letter case) fails: SQLite's names do not depend on case; `apop_table_exists` says 0 for a table whose name differs in case only, and does not remove it.
* `C108_default_refuted` (Db/ToDb.lean): (the default) fails: the documentation says that appending is the default; if the letter is not given, what the table held is lost.
* `C108_case_overwrite_refuted` (Db/ToDb.lean): (overwriting, letter case) fails: if the table's name differs in case only, `w` does not overwrite it: the new rows are appended to the old.

## C109
* `C109_noop_refuted` (Mod/ClearProps.lean): The documentation says that preps after the first are no-ops. With a size of -1 and no data the second prep marks the model with the dimension error 'd', although the parameters are fine.
* `C109_msize_refuted` (Mod/ClearProps.lean): A model declared with a vector of 2 and `msize1 = 3`, `msize2 = 0` (no matrix) gets a 2 by 3 matrix and no vector.

## C111
* `C111_nan_refuted` (Mod/CdfProps.lean): With NaN as a draw or as a coordinate of the point, the draw counts as below the point: here the "probability" of being at or below NaN is one.
* `C111_narrow_refuted` (Mod/CdfProps.lean): A point with fewer coordinates than the draws is read past its end.

## C112
* `C112_leak_refuted` (Mod/CdfProps.lean): A group copied before its first cdf call (every `apop_estimate` copies the model's groups): all groups are freed and the draws are still in memory, for ever.

## C113
* `C113_endless_refuted` (Mod/Dispatch.lean): A multivariate model without a draw method but with an `apop_mcmc` group (as one adds for `apop_update`) has no outcome at all: the function calls itself for ever.

## C114
* `C114_predict_refuted` (Mod/Dispatch.lean): The prediction method registered for one model without an estimate method (as `apop_logit`'s) is used for every other model without one, whatever its likelihood: predictions for a Yule or a mixture model are made as for a logit.
* `C114_update_collision_refuted` (Mod/Dispatch.lean): Two pairs of models may share a hash all the same: a (prior, likelihood) pair and another.

## C115
* `C115_out_of_range_ub` (Out/ReadProps.lean): NaN, infinities and numbers beyond the range of int cannot be printed: the conversion to int that every element goes through has no defined result.
* `C115_weights_refuted` (Out/ReadProps.lean): refuted for pages with weights: the file cannot be read with its names. The weights are printed as one more item of each line but have no name in the header, so that `apop_text_to_data` reads names past the end of the list.

## C117
* `C117_vector_comma_refuted` (Out/Vector.lean): refuted for other delimiters: the file cannot be read. With a comma, the two delimiters after the vector's element stand for an empty item, so that every line has one more than there are names, and `apop_text_to_data` reads names past the end of the list.

## C118
* `C118_default_append_refuted` (Out/Pages.lean): refuted: the default is not to append, as documented, but to write over.

## C119
* `C119_gradient_moves_last_refuted` (Mle/Gradient.lean): (refutation of "the model is unchanged"). With a positive step the last parameter of the model is left changed: it has grown, by at most half of `delta`.
* `C119_penalty_sign_refuted` (Mle/Gradient.lean): (refutation). Where the constraint binds, the penalty enters the gradient with the opposite sign from the one it has in the objective: with the parameter at -1 and required to be nonnegative, the objective rises with slope 1 towards the feasible region, and the gradient is -1.

## C120
* `C120_hessian_moves_last_refuted` (Mle/Hessian.lean): (refutation of "the estimate is left alone"). Asking for the Hessian moves the model's last parameter: it grows, by at most half of the two steps for each parameter.

## C121
* `C121_singular_refuted` (Mle/Hessian.lean): (refutation). Where the second derivatives are singular (a flat direction), the call is undefined behaviour instead of an error.

## C123
* `C123_not_best_refuted` (Mle/Info.lean): (refutation). A search that stops elsewhere than at its best point reports a log likelihood that isn't the one at its parameters, when positive.
* `C123_freed_refuted` (Mle/Info.lean): (refutation). After a conjugate gradient or Newton search, with information wanted (the default), the count of parameters is read from freed memory.

## C124
* `C124_anneal_interrupt_refuted` (Mle/AnnealStatus.lean): (refuted: status 0 means that an optimum was looked for). Interrupted before the first move, the search reports 0.
* `C124_simplex_zero_refuted` (Mle/Status.lean): (refutation of "status 0: optimum found"). A simplex search that runs out of iterations, or is stopped by an error or by SIGINT, reports 0.
* `C124_cg_zero_refuted` (Mle/Status.lean): (refutation). A conjugate gradient search stopped by a GSL error or SIGINT before its last iteration reports 0.
* `C124_nonzero_refuted` (Mle/Status.lean): (refutation of "nonzero status: trouble"). An optimum found in the last allowed iteration is reported as -1; a Newton search always reports -1.

## C125
* `C125_short_start_refuted` (Mle/Status.lean): (refutation). A starting point shorter than the parameters is read past its end.

## C126
* `C126_matrix_nan_refuted` (Mle/Restart.lean): (refutation). Only the vector part of the new parameters is checked: with a matrix of parameters, a new estimate holding a NaN replaces a good old one.
* `C126_es_ignored_refuted` (Mle/Restart.lean): (refutation). With "es" and a second model, the second model is estimated from its own starting point, not from the first model's.
* `C126_ns_truncates_refuted` (Mle/Restart.lean): (refutation). "ns" overwrites the old model's starting point with the first element of the new one's; a later search of two or more parameters from it reads past its end (C125).

## C127
* `C127_interrupt_refuted` (Mle/Anneal.lean): (refutation of "ctrl-C will ... return whatever parameters the search was on"). Interrupted at any time, annealing returns the (shifted) starting point.
* `C127_step_long_refuted` (Mle/Anneal.lean): (refutation). With three parameters or more the cut points aren't in order, and the move can be longer than the step size by the Manhattan metric, against the comment at apop_mle.m4.c:782: cut points 0, .9, .1, 1 give 2.6 steps.

## C128
* `C128_endless_refuted` (Mle/Cycle.lean): (refutation of termination in general). Searches that lose ground can keep it going for ever: the log likelihood is the parameter, the tolerance one half.

## C129
* `C129_two_free_refuted` (Mle/Cycle.lean): (refutation). With two or more free parameters, the second starts from the row number of its place in the parameters, not from the value given.

## C130
* `C130_unknown_outcome_refuted` (Choice/Logit.lean): (refuted): that an outcome which isn't one of the categories is reported; it is counted as the last category.

## C133
* `C133_ignored_columns_refuted` (Choice/Probit.lean): (refuted): that the likelihood depends on every column of the parameters: only the second is ever looked at.
* `C133_own_columns_refuted` (Choice/Probit.lean): (refuted): that each category's probit uses that category's column of parameters: three observations, three categories, one constant regressor.
* `C133_unchosen_refuted` (Choice/Probit.lean): (refuted): that the likelihood can always be calculated: if in the first data set nobody chose the first category in the table, the calculation is undefined.

## C134
* `C134_raw_vector_refuted` (Choice/Prep.lean): (refuted): that raw outcomes are converted for you wherever they are: outcomes 1 and 2 in the vector are counted each under the other's category.

## C136
* `C136_unwritten_refuted` (Choice/Draw.lean): (refuted): that a draw returns the category drawn: the first cell of the output is never written.
* `C136_overrun_refuted` (Choice/Draw.lean): (refuted): that an array of the model's draw size is enough: with two or more columns the last number is written past its end.
* `C136_inputs_refuted` (Choice/Draw.lean): (refuted): that the inputs are a row of the data: the outcome takes the place of the first input.

## C139
* `C139_both_parts_refuted` (Density/Kernel.lean): (refuted): that draws agree with the likelihood for base data with both parts: the likelihood centres the kernel on the matrix element, draws on the vector's.
* `C139_unweighted_refuted` (Density/Kernel.lean): (refuted): that without weights each base row has its share: the last is never used.

## C140
* `C140_asymmetric_refuted` (Density/Mvn.lean): (refuted): that a covariance which isn't symmetric is noticed or used as given: only the upper triangle of the inverse counts.

## C141
* `C141_covariance_refuted` (Density/Mvn.lean): (refuted): that the covariance estimated, too, makes the data most likely: for the numbers 0 and 2 the estimate is 2, and 1 does better.

## C143
* `C143_not_shares_refuted` (Density/Dirichlet.lean): (refuted): that a row which is not made of shares is given likelihood zero: it counts in full, whatever its total.
* `C143_negative_refuted` (Density/Dirichlet.lean): (refuted): that parameters outside the model's range are noticed: only their total is looked at.

## C144
* `C144_example_refuted` (Transform/Coord.lean): (refuted): that the documentation's example (eg/jacobian.c) gives the lognormal's likelihood: its Jacobian is the sum, not the product, of the derivatives.
* `C144_decreasing_refuted` (Transform/Coord.lean): (refuted): that a decreasing transformation may be given by its derivative (apop.m4.h:1622): a negative Jacobian makes the likelihood NaN.

## C145
* `C145_copy_refuted` (Transform/Coord.lean): (refuted): that a copy of a prepared transform has parameters of its own to be evaluated with: setting the copy's parameters has no effect on its likelihood.
* `C145_two_estimates_refuted` (Transform/Coord.lean): (refuted): that two estimates made from one transform are independent: the second writes over the first, and freeing both frees the same block twice.
* `C145_no_settings_refuted` (Transform/Coord.lean): (refuted): that a transform without its settings is marked with error 's' and left alone: it goes on to use the missing group.

## C146
* `C146_two_draws_refuted` (Dist/Multinomial.lean): (refuted): that n = 2 is treated like any other: with three bins all but one of them are ignored.
* `C146_total_refuted` (Dist/Multinomial.lean): (refuted): that a row's total is compared with n: it counts for whatever its total is.
* `C146_short_row_refuted` (Dist/Multinomial.lean): (refuted): that rows of too few bins are refused: the row is read past its end.

## C147
* `C147_variance_refuted` (Dist/MultinomialEst.lean): (refuted): that the page has the variance of the estimated probabilities (as documented): for a share of n·M draws that is p(1−p)/(nM); what is there is n²M times that.

## C148
* `C148_restores_refuted` (Dist/MultinomialEst.lean): (refuted): if n isn't, a draw cuts it.
* `C148_binomial_refuted` (Dist/MultinomialEst.lean): (refuted): that a draw from a binomial is the number of hits: the first number written is the number of misses, and a second is written after it, although the model says its draws are of size one.
* `C148_dsize_refuted` (Dist/MultinomialEst.lean): (refuted): that the size of draws is set to the number of bins by an estimation: it is the number of draws per row, here 2 for three bins.

## C149
* `C149_overflow_refuted` (Rng/Zipf.lean): (refuted): that any parameter above one is safe: with 1.1, more than one draw in sixteen is converted to `int` although it is 2³¹ or more.
* `C149_one_refuted` (Rng/Zipf.lean): (refuted): that a parameter of one, which is let through, can be drawn from: no draw has a defined result.

## C150
* `C150_parameter_refuted` (Rng/Yule.lean): (refuted): that the parameter is checked: at one no draw has a defined result, and below one almost none.

## C151
* `C151_no_data_refuted` (Rng/Cdf.lean): : data without a number are read out of bounds.

## C154
* `C154_flat_refuted` (Arms/Cases.lean): : over a flat piece the draw isn't exactly the envelope's: half the numbers don't split its area in half.

## C156
* `C156_no_instruments_refuted` (Regress/Iv.lean): (no instruments) fails as documented: "If the instruments data set is NULL or empty, I'll just run OLS" — undefined, whatever the data.
* `C156_weights_refuted` (Regress/Iv.lean): (weights) fails: the roots of the weights are put on the data but not on the instruments; with the data's own columns for instruments the result is not weighted least squares: 2/3 and not 4/5.

## C157
* `C157_stale_refuted` (Regress/OlsLik.lean): (stale). Once there is a page of predictions, the log likelihood of the model's own data does not depend on the parameters: two models with other parameters but the same pages have the same.
* `C157_weights_refuted` (Regress/OlsLik.lean): (weights) fails: the weighted estimate 4/5 is not the parameter of greatest log likelihood: 1/2, which ignores the weights, has more, for every error variance.
* `C157_own_weights_refuted` (Regress/OlsLik.lean): (own data, weights) fails: with weights the stored residuals are not the data's; the data estimated from and a copy of them have different log likelihoods.

## C158
* `C158_sign_refuted` (Regress/OlsScore.lean): (sign) fails as documented: the score is the gradient only where both are zero; everywhere else it points downhill.
* `C158_unprepared_refuted` (Regress/OlsScore.lean): (unprepared data) fails: the log likelihood takes the first column of data without a vector to be a constant (C157), but the score multiplies by it; at the estimate of the mean of 1 and 3, where the prepared data have score zero, it is -1.

## C160
* `C160_size_refuted` (Regress/OlsDraw.lean): (size) fails: an array "of size `dsize`", as documented, is one too short: with two columns or more every draw writes past its end.
* `C160_pmf_refuted` (Regress/OlsDraw.lean): (documented input distribution) fails: with `apop_estimate(inset, apop_pmf)` of the regression's own data, which have a vector, a drawn row has the dependent variable where the constant should be: the predictor is off by the constant's coefficient times (y - 1).

## C161
* `C161_default_refuted` (Regress/ParamTest.lean): (other models) fails: the variance is taken where the Normal wants the standard deviation: for a parameter 3 with variance 4 the test is of 3/4 and not of 3/2 standard deviations.

## C162
* `C162_zero_refuted` (Linalg/Psd.lean): The documentation's "Otherwise, just returns zero" (when no determinant is wanted) is false: it returns NaN.

## C163
* `C163_semidefinite_refuted` (Linalg/Psd.lean): Singular positive semidefinite matrices fail, although the default is to test for semidefiniteness.
* `C163_asymmetric_refuted` (Linalg/Psd.lean): Symmetry is not checked: this matrix passes though its quadratic form takes a negative value.
* `C163_tall_refuted` (Linalg/Psd.lean): A matrix with more rows than columns, whose leading blocks are all positive, runs past its last column.

## C164
* `C164_trace_zero_refuted` (Linalg/ToPsd.lean): A matrix whose diagonal sums to zero is never repaired: any call that gets to the end is stopped by the `assert`.
* `C164_closest_refuted` (Linalg/ToPsd.lean): The result is not the closest: for this matrix every call reports a relative distance greater than 1/2, though a positive semidefinite matrix lies at distance 1/2.
* `C164_endless_refuted` (Linalg/ToPsd.lean): In exact arithmetic a call on the matrix with zeros on the diagonal and ones off it never ends.

## C165
* `C165_constant_refuted` (Linalg/Pca.lean): Data whose columns are all constant: every weight is NaN.

## C166
* `C166_even_refuted` (Linalg/MvGamma.lean): The documented NaN does not come for the other poles: whenever Γ is undefined for an even `j`, GSL's error handler is called instead.

## C168
* `C168_positive_refuted` (Mcmc/Constraint.lean): The default chain with one parameter that must be positive (a variance, a rate): whatever the likelihood and the width of the proposals, the likelihood on the positive numbers is not the chain's stationary distribution; that is the likelihood times the chance of a proposal above zero, which grows with the parameter.
* `C168_oversampled_refuted` (Mcmc/Constraint.lean): The documentation says that values near the constraint will be oversampled (apop_mcmc.m4.c:235). They are undersampled: for every `a`, the stationary distribution of `C168_positive_refuted` gives the values up to `a` a smaller share than the likelihood does (the shares are compared by cross multiplication).

## C172
* `C172_median_even_refuted` (Stats/Summary.lean): The median is the lower of the two in the middle, never between them: not the usual convention for a column of even length.
* `C172_median_weights_refuted` (Stats/Summary.lean): With replicate weights the median is not that of the repeated data.

## C174
* `C174_t_zero_refuted` (Opt/ModelConstraints.lean): A σ of zero is let through, though the density is then undefined.
* `C174_overshoot_refuted` (Opt/ModelConstraints.lean): Elements between zero and the margin are moved too far: (m/2, m/2) goes to (2m, m), though (m, m) is in bounds and nearer.
* `C174_dirichlet_refuted` (Opt/ModelConstraints.lean): Dirichlet: with three parameters its own history can leave one out of bounds: a call at (.45m, m, -1) followed by one at (.9m, .9m, m) gives (1.9m, 2m, 0), though the third parameter was in bounds before.
* `C174_shared_refuted` (Opt/ModelConstraints.lean): The scratch vector is shared by all models: after a call for a Dirichlet of three parameters at (1, 1, -1), the t's constraint turns (1, 1, .4) into (1, 1, 0), where the number of degrees of freedom is out of bounds.

## C175
* `C175_nudge_lost_refuted` (Rake/Setup.lean): Nudge with an init table of its own fails: the cells nudged are those not in the *margin* table. A combination of the margin table that is not in the init table gets no row, so its margin can't be met;
* `C175_nudge_twice_refuted` (Rake/Setup.lean): and a possible cell of the init table that is not in the margin table gets two rows, unless its count happens to be the nudge.

## C177
* `C177_crosstab_wrapped_refuted` (Db/Session.lean): Crosstab in a transaction fails: in a transaction of the user's that began with `d0` and now sees `d`, the inner "begin" is an error no one looks at, and the inner "commit" ends the user's transaction: all of it is on the disk at once, and the user's own commit and rollback are errors without effect. So a transaction with a crosstab in it is not done wholly or not at all.
* `C177_open_failed_refuted` (Db/Session.lean): Open failing: the next query is silently to a database in memory: it can succeed, and the file will never hold it.
* `C177_reopen_locked_refuted` (Db/Session.lean): Opening again in a transaction fails: the old connection is not closed; if its transaction has written, the file stays locked: all writes to it are errors, whatever is called, until the program ends.

## C178
* `C178_bad_regex_refuted` (Db/Import.lean): An expression that does not compile matches every name.
* `C178_lost_refuted` (Db/Import.lean): With 'd' and 'o' the old rows are gone before the file is opened: if there is no such file the table is empty, or is no more.
* `C178_row_names_refuted` (Db/Import.lean): Row names without a header: −1 always (up to 999 columns), and an empty table of one column too many is left. The same if the names are given in the call.
* `C178_case_refuted` (Db/Import.lean): A name that differs in case only: the table is there for SQLite, and not for the check; −1 whatever was asked for, and nothing is done.

## C179
* `C179_beta_range_refuted` (Dist/TrueMoments.lean): The documentation's range for the variance, (0, 1/12), is neither needed nor enough: mean 1/2 and variance 1/5 are fine, and mean 1/10 with variance 0.09 is not refused and gives α = β = 0.
* `C179_lognormal_both_refuted` (Dist/TrueMoments.lean): With a vector and a matrix both it does not come back, as for the normal.
* `C179_lognormal_predict_refuted` (Dist/TrueMoments.lean): But the library never installs it (`lognormal_prep` adds a score only, model/apop_normal.c:244-247, and nothing else refers to it): `apop_predict` fills a missing value by the most likely one, which is exp(μ − σ²), less than the mean and never as likely.

## C180
* `C180_bare_refuted` (Pmf/Concurrent.lean): (no group at first: refuted). If the model has no settings group of its own (its data were put in by hand, with no estimation), two threads may both find none, both add one, and the second addition frees the first one's block, which the first thread then reads. The critical section is around the addition, not around the look-up.
* `C180_cdf_refuted` (Pmf/Concurrent.lean): (CDFs in parallel: refuted). The CDF has no critical sections: of two threads asking at once, the second finds the vector of the first allocated and not filled, and sums what has not been written.
* `C180_cdf_draw_refuted` (Pmf/Concurrent.lean): (a CDF beside a draw: refuted). That the draw is inside its critical section does not help.

## C181
* `C181_kernel_kernel_refuted` (Par/Sections.lean): (a kernel density of kernel densities: refuted). If the kernel of a kernel density is itself a kernel density (with some data in each), evaluating the likelihood never ends: the one thread there is waits for itself.
* `C181_cross_refuted` (Par/Sections.lean): (two threads that wait for one another: refuted). One thread draws from a model that has no draw method: it is in `apop_draw` and wants `metropolis`. The other runs a Markov chain on a model whose likelihood draws from such a model: it is in `metropolis` and wants `apop_draw`. There is a schedule from which on nothing moves.
* `C181_chain_chain_refuted` (Par/Sections.lean): (a chain inside a chain: refuted). A Markov chain on a model whose likelihood itself runs one waits for itself too. The vtables' section comes in between, so this is not `stuck_twice`.

## C182
* `C182_cold_refuted` (Rng/Threads.lean): (from the start: refuted). With no generator made before, one thread may have read the pointer to the table when another makes the table longer, and reads what has been freed.

## C183
* `C183_mixture_copy_refuted` (Settings/OwnerBad.lean): fails for mixtures: whatever was done before, copying a mixture (`apop_estimate` copies it) and freeing the mixture and the copy frees the array of parameter sizes twice.
* `C183_arms_copy_refuted` (Settings/OwnerBad.lean): fails for ARMS settings: copying a model that has been drawn from by ARMS and freeing both frees the array of points twice.
* `C183_loess_copy_refuted` (Settings/OwnerBad.lean): fails for loess: copying an estimated loess model and freeing both frees all arrays twice.
* `C183_dconstrain_copy_refuted` (Settings/OwnerBad.lean): fails for constrained models copied after an evaluation: the first program copies, frees the original and uses the copy; the second copies the copy as well, and freeing two of the three frees `last_params` twice.
* `C183_lost_refuted` (Settings/OwnerBad.lean): Lost memory: a constrained model that was evaluated and never copied; any mixture; the instruments that a copied linear model got. All groups are freed at the end of these programs.
* `C183_user_freed_refuted` (Settings/OwnerBad.lean): What the user handed over is freed: the input distribution given to `apop_lm`, and the weights of the data given to `apop_loess`; a user who then frees his own model or data frees it again.
* `C183_kernel_copy_refuted` (Settings/OwnerKde.lean): fails for kernel densities whose original is freed before a copy is used.

## C184
* `C184_above_one_refuted` (Fisher/TwoCols.lean): (finding). A table that is the only one with its margins has probability one; the number given is more than one.

## C186
* `C186_overlap_refuted` (Fisher/Layout.lean): (finding). With 2 rows and 19 columns, the last double of the work array `rwk` and the first int of the hash table `key` are in the same place, for every total.
* `C186_total_refuted` (Fisher/Layout.lean): (finding). A total of 100000 does not fit, whatever the size of the table.

## C188
* `C188_nan_refuted` (Fisher/TwoCols.lean): (finding). The documentation promises NaN in case of an error. For a column of two ones the two numbers are never set.

## C189
* `C189_in_place_names_refuted` (Regress/DummyOpts.lean): (refuted): in place, the column names are freed but stay in the list: every data set with a column name is left with that many dangling names in front.
* `C189_in_place_last_refuted` (Regress/DummyOpts.lean): (refuted): dummies can be put in place after the last column: the second part of the split is NULL, and is read. In particular for every matrix of one column.
* `C189_in_place_remove_refuted` (Regress/DummyOpts.lean): (refuted): "you will probably use this with remove='y'": in place, remove does nothing.
* `C189_remove_wide_refuted` (Regress/DummyOpts.lean): (refuted): remove for a matrix with more columns than rows plus one: the list of columns is too short.
* `C189_vector_refuted` (Regress/DummyOpts.lean): (refuted): the vector can be turned into dummies (col −1): a data set with a vector is refused, one without is read through NULL.
* `C189_no_matrix_refuted` (Regress/DummyOpts.lean): (refuted): numeric columns of data without a matrix are refused: NULL is read.
* `C189_in_place_text_refuted` (Regress/DummyOpts.lean): (refuted): "if you asked for a text column, I will append to the end": text column 0 goes after column 0 of the matrix.

## C190
* `C190_empty_column_refuted` (Out/Show.lean): (refuted): "the weights are next to the data": with weights there is always an empty column before them.
* `C190_extra_names_refuted` (Out/Show.lean): (refuted): with more column names than columns the extra ones are put on top of the text.

## C191
* `C191_observed_refuted` (Regress/OlsNames.lean): (finding). The documented lookup of the observed values by the column name "observed" fails as soon as the data set has a column name, unless the first regressor happens to be called that.
* `C191_empty_first_name_refuted` (Regress/OlsNames.lean): (finding). An empty first column name (data without a vector) is overrun.
* `C191_unnamed_vector_refuted` (Regress/OlsNames.lean): (finding). A vector without a name: the parameters get no names at all, even if every regressor has one.

## C192
* `C192_all_off_refuted` (Regress/OlsNames.lean): (finding). The documented way to turn off all auxiliary parts, a parts-wanted group with its default 'n's, does not turn them off: pages are made but not filled in, and the table of tests is computed from unwritten memory.
* `C192_covariance_only_refuted` (Regress/OlsNames.lean): (finding). Asking for the covariance only ('n' for the predicted values) still produces the `<Predicted>` page and R².
* `C192_no_expected_refuted` (Regress/OlsNames.lean): (finding). The deprecated pair "covariance, no expected values" dereferences a missing page.

## C194
* `C194_reads_before_array_refuted` (Fisher/F3Claims.lean): f3xact reads before its array of log factorials: for row totals 1, 9, 10, 10 and column totals 1 (20 times) and 10, no matter how many entries the array has.

## C195
* `C195_two_by_two_refuted` (Fisher/F4Claims.lean): For two rows and two columns the value is not the length of a path: with totals 1 and 2 the only tables have a cell of two units and a cell of one, or three of one.

## C196
* `C196_long_vector_refuted` (Fisher/IsortClaims.lean): : the bound is exact: there is a vector of 3071 elements on which `isort` reports the error "This should never occur" and returns with the vector unsorted, however long it runs.

## C197
* `C197_more_than_six_refuted` (Rake/VarList.lean): , counterexample for every larger table: with more than six columns that are no counts, the variables after the sixth have a blank name, so the list of fields in the queries is not one of the columns.

## C198
* `C198_matrix_refuted` (Mod/ParamModel.lean): , counterexample for every other matrix: with a matrix of parameters that is not two by two, none of the runs' parameters get into the PMF: its data are whatever was in memory.

## C199
* `C199_normal_page_refuted` (Dist/CovPages.lean): , counterexample for every law: the `<Covariance>` page has the mean where the variance should be: with the true mean and variance of the observations, its first element is the variance of the estimated mean only if the mean is equal to the variance, and it is negative if the mean is.
* `C199_normal_predict_refuted` (Dist/CovPages.lean): … C199, counterexample: so it is not the variance, unless that is zero or one.
* `C199_bernoulli_page_refuted` (Dist/CovPages.lean): … C199, counterexample: while the `<Covariance>` page, with the true probability, has `p(1-p)`: the variance of one observation, not of the estimate, for every sample of more than one.

## C200
* `C200_small_refuted` (Dist/TEstimate.lean): (small data, refuted). With three numbers the scale is zero and with two (not equal) it is NaN: no t distribution.
* `C200_both_parts_refuted` (Dist/TEstimate.lean): (both parts, refuted). With -1, 1 in the vector and 9, 11 in the matrix the distance of the parts is lost: the t distribution has variance one, the data 104/3.

## C201
* `C201_report_refuted` (Mod/Reestimate.lean): (report, a case). An exponential estimated from the number 1 and then, the result, from the number 2: the mean is 2, the log likelihood of the data at it is -1 - log 2, and the info page says -1.
* `C201_t_refuted` (Mod/Reestimate.lean): (t, a case). A t distribution estimated from 0, 2, 4, 6 and then, the result, from 10, 12, 14, 16: the location stays 3; estimated from the second alone it is 13.

## C202
* `C202_race_refuted` (Mod/DrawRace.lean): (refuted). Two threads: the first sets up the chain and the method; before it copies the settings the second calls the method, finds no settings, and runs a chain over the model's *parameters*, whose settings come first. Both threads then draw parameters as if they were data, and so does every later call.

## C203
* `C203_again_refuted` (Mod/BootCov.lean): (refuted: an estimated model estimated again). The parameter is then the new data's and the covariance page found is that of the old data.
* `C203_bernoulli_again_refuted` (Mod/BootCov.lean): (refuted: Bernoulli estimated again). The page found is that of the first estimate.

## C204
* `C204_stale_refuted` (Transform/MixDraw.lean): (refuted: changing the weights). Once a draw has been made, setting other weights has no effect on the draws: they go by the weights before.
* `C204_dsize_refuted` (Transform/MixDraw.lean): (refuted: the draw size). The documentation: the draw size is set iff the models have the same. After the prep it is the first model's although the second's is another, and a draw writes more numbers than that.

## C205
* `C205_race_refuted` (Vtable/Race.lean): (refuted: a get beside an add). `apop_vtable_get` reads the element after it has given up the lock: with another thread registering a function under a different key, the block it reads may have been freed by then.

## C206
* `C206_column_lost_refuted` (Conv/CrossTrip.lean): refuted for a table without records: NULL, and whatever `db_name_column` was, it is NULL from then on.
* `C206_error_refuted` (Conv/CrossTrip.lean): refuted: the documentation has error 'q' for a query that fails; when the first fails there is a data set with no matrix and no error.
* `C206_digits_refuted` (Conv/CrossTrip.lean): refuted for seven digits.
* `C206_infinite_refuted` (Conv/CrossTrip.lean): refuted for infinities: the insertion fails silently, and where another row has that column the cell reads 0.
* `C206_quote_refuted` (Conv/CrossTrip.lean): refuted for names with a quote: the row of O'B is not written at all, and a name with two quotes loses one.
* `C206_nan_refuted` (Conv/CrossTrip.lean): refuted for a text for NaN that isn't read as NaN: with "." a NaN comes back as 0.
* `C206_twice_refuted` (Conv/CrossTrip.lean): refuted for two rows of one name: one row is left, with the later cells.

## C207
* `C207_get_base_refuted` (Transform/FixShared.lean): refuted for results kept apart: of two models on one base (an estimate and a copy, say), the two results of `apop_model_fix_params_get_base` are one and the same model, which holds the second's parameters.
* `C207_fix_again_refuted` (Transform/FixShared.lean): refuted for fixing a model again: an evaluation has written to the model the user gave, so that it has no free parameters left; the second `apop_model_fix_params` returns a plain copy.
* `C207_fixed_twice_refuted` (Transform/FixShared.lean): refuted for two fixed-parameter models on one base, made at different times: what the second has fixed (5) is changed by an evaluation of the first (to 7).

## C208
* `C208_during_refuted` (Update/Setup.lean): refuted for calls during the first one: while thread 0 registers, thread 1's call finds no conjugate pair for a prior and likelihood that are one (and goes on to a Markov chain).

## C209
* `C209_rounding_refuted` (Db/ToDbWide.lean): (refuted: numbers are kept). Two numbers that `%g`, of six digits, prints in the same way are the same in the statement: it is not possible to get the number back from the table.
* `C209_missing_refuted` (Db/ToDbWide.lean): (refuted: as with fewer columns). A missing text cell becomes an empty string here, where the other path stores NULL.
* `C209_name_refuted` (Db/ToDbWide.lean): (refuted: row names). A missing row name is given to `printf` as a NULL.
* `C209_result_refuted` (Db/ToDbWide.lean): (refuted: failure is reported). Whatever the database does with the statements, the result is 0.

## C210
* `C210_stuck_refuted` (Transform/MixConstraint.lean): (the values are never put right), refuted. "After its constraint, the parameters are such that it doesn't object": a last component with no more parameters than there are components that objects to its parameters objects for ever, however often the mixture is asked and has moved its parameters: it is left with the values it objects to.
* `C210_none_refuted` (Transform/MixConstraint.lean): (a component without a constraint), refuted. A component that has no constraint (as `apop_uniform`): its constraint is called all the same.

## C212
* `C212_null_refuted` (Transform/Predict.lean): Without a set, and with a model whose dimension is unknown (-1) or none (0), a matrix that is not there is written to.
* `C212_later_pages_refuted` (Transform/Predict.lean): What is missing on a later page only stays missing.

## C213
* `C213_weights_refuted` (Hist/ToPmf.lean): The documentation says that the weights are normalised to sum to one. There are none.
* `C213_uncompressed_refuted` (Hist/ToPmf.lean): As it is returned, the model gives every bin that holds a draw the probability of a single draw, however many it holds: right only for a bin with one draw.

## C214
* `C214_beta_never_refuted` (Dist/BetaDraw.lean): With no such number, as for NaN parameters, a draw never returns.
* `C214_binomial_negative_refuted` (Dist/Cdf.lean): Just below zero the binomial's CDF is that of zero hits, where the probability is zero; from -1 down the conversion of the point to an unsigned number is undefined.
* `C214_beta_point_refuted` (Dist/Cdf.lean): With both a vector and a matrix the beta's CDF is taken at the matrix's first element, the others' at the vector's.

## C215
* `C215_title_refuted` (Name/Memory.lean): The documentation has `apop_name_free` free the memory used by the structure; the title it leaves.
* `C215_copy_refuted` (Name/Memory.lean): So the copy of a list without a title, whose title is "(null)", leaves one too.
* `C215_self_refuted` (Name/Memory.lean): The vector's name of a list stacked onto the list itself is undefined, wherever `realloc` puts it.
