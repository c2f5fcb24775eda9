[propext, Classical.choice, Quot.sound] (984 theorems)
  Apop.Names.C01_add_names
  Apop.Names.C02_find_sound
  Apop.Names.C02_find_complete
  Apop.Names.C02_find_preference
  Apop.Page.C04_copy
  Apop.Page.C04_copy_loses_vector_name
  Apop.Page.C04_copy_null_title
  Apop.Pages.C05_copy_self_loop
  Apop.Pages.C05_copy_terminates
  Apop.Page.C06_alloc_shape
  Apop.Realloc.C07_matrix_realloc
  Apop.Realloc.C07_null
  Apop.Text.C09_text_alloc
  Apop.Text.C09_histories
  Apop.Text.C10_text_set
  Apop.Access.C11_get_set
  Apop.Access.C11_by_number
  Apop.Access.C11_by_name
  Apop.Access.C11_defaults
  Apop.Stack.C12_matrix_stack_cols
  Apop.Stack.C12_stack_rows
  Apop.Stack.C12_stack_null
  Apop.Stack.C12_null_names_ub
  Apop.Stack.C12_stack_cols
  Apop.Stack.C12_two_by_two
  Apop.Stack.C12_two_by_two_refuted
  Apop.Stack.C13_split_rows
  Apop.Stack.C13_stack_split_rows
  Apop.Stack.C13_split_rows_ends
  Apop.Stack.C13_split_cols
  Apop.Stack.C13_split_cols_zero
  Apop.Stack.C13_split_cols_loses_text
  Apop.Rows.C14_rm_rows
  Apop.Rows.C15_prune
  Apop.Rows.C15_prune_unnamed_ub
  Apop.Transpose.C16_in_place
  Apop.Transpose.C16_twice
  Apop.Transpose.C16_copy_matrix
  Apop.Transpose.C16_copy_text
  Apop.Pages.C17_get_page
  Apop.Pages.C17_add_get
  Apop.Pages.C17_rm_page
  Apop.Sort.C18_rearrange
  Apop.Sort.C19_one_column
  Apop.Sort.C19_lexicographic
  Apop.Sort.C19_default
  Apop.Sort.C19_order_by_rank
  Apop.Sort.C20_descending_partial
  Apop.Conv.C22_compress
  Apop.Conv.C22_expand
  Apop.Conv.C22_roundtrip
  Apop.Rows.C23_listwise
  Apop.Rows.C23_idempotent
  Apop.Settings.C24_map
  Apop.Settings.C24_add_then_get
  Apop.Vtable.C25_drop_overread_refuted
  Apop.Asst.C26_paste
  Apop.Asst.C26_join
  Apop.Asst.C28_matches
  Apop.Asst.C28_nonterminating_refuted
  Apop.Asst.C28_no_parens
  Apop.Parse.C30_line_fields
  Apop.Parse.C30_round_trip
  Apop.Parse.C30_single_empty_lost
  Apop.Parse.C30_white_empty_lost
  Apop.Parse.C30_white_fields
  Apop.Parse.C30_nul_delimits
  Apop.Parse.C31_line_in_bounds
  Apop.Parse.C31_fixed_in_bounds
  Apop.Parse.C32_db_only_file
  Apop.Parse.C32_no_data_ub
  Apop.Parse.C32_empty_ub
  Apop.Parse.C32_header_only_ub
  Apop.Parse.C32_single_unterminated_ub
  Apop.Parse.C32_last_comment_ub
  Apop.Parse.C33_records
  Apop.Parse.C33_records_nohead
  Apop.Parse.C33_return_off
  Apop.Parse.C33_last_line_dropped
  Apop.Parse.C34_fixed
  Apop.Parse.C34_long_line_ub
  Apop.Parse.C35_both_quotes_broken
  Apop.Conv.C36_fill
  Apop.Conv.C36_too_few_ub
  Apop.Conv.C36_vector_fill
  Apop.Conv.C36_text_fill
  Apop.Conv.C37_crosstab
  Apop.Conv.C38_names_never_fit_refuted
  Apop.Page.C40_chain
  Apop.Page.C40_chain_stops
  Apop.Page.C40_memcpy
  Apop.Views.C41_find_row
  Apop.Views.C41_find_col
  Apop.Views.C41_row_vector
  Apop.Views.C41_col_vector
  Apop.Views.C41_submatrix
  Apop.Views.C41_write_through
  Apop.Views.C41_cols_view
  Apop.Views.C41_write_rows
  Apop.Asst.C42_always_E
  Apop.Asst.C42_draws_null
  Apop.Asst.C42_draws_dsize_zero
  Apop.Access.C43_named_lookup
  Apop.Settings.C44_model_copy_settings
  Apop.Parse.C45_matrix
  Apop.Parse.C45_matrix_nohead
  Apop.Parse.C45_short_line_unwritten
  Apop.Parse.C45_long_line_extra_row
  Apop.Parse.C45_few_names_ub
  Apop.Parse.C45_only_line_unterminated_ub
  Apop.Map.C46_new
  Apop.Map.C46_inplace
  Apop.Map.C46_ends
  Apop.Map.C46_vector_map
  Apop.Map.C46_pages_inplace
  Apop.Map.C47_vector_index_partial
  Apop.Map.C47_matrix_index
  Apop.Map.C48_rows
  Apop.Map.C48_columns
  Apop.Map.C48_rows_inplace
  Apop.Map.C49_numbers
  Apop.Map.C49_rows
  Apop.Asst.C50_distinct
  Apop.Asst.C50_new
  Apop.Stats.C51_weighted
  Apop.Stats.C51_replicates
  Apop.Stats.C51_scale
  Apop.Stats.C51_matrix_mean
  Apop.Stats.C52_var
  Apop.Stats.C52_var_replicates
  Apop.Stats.C52_cov
  Apop.Stats.C52_cov_replicates
  Apop.Stats.C52_cov_comm
  Apop.Stats.C52_cov_self
  Apop.Stats.C53_pop
  Apop.Stats.C53_replicates
  Apop.Stats.C53_matrix_var
  Apop.Stats.C54_var
  Apop.Stats.C54_skew
  Apop.Stats.C55_total
  Apop.Stats.C55_monotone
  Apop.Stats.C55_ends
  Apop.Stats.C55_up
  Apop.Stats.C55_down
  Apop.Stats.C55_average_not_below
  Apop.Stats.C55_above_literal
  Apop.Stats.C56_var
  Apop.Stats.C56_wrong
  Apop.Stats.C56_shift
  Apop.Stats.C56_moments
  Apop.Stats.C57_history
  Apop.Stats.C57_values
  Apop.Stats.C57_lengths
  Apop.Stats.C57_metric_Lp
  Apop.Stats.C57_metric_euclid
  Apop.Stats.C57_metric_manhattan
  Apop.Stats.C57_metric_discrete
  Apop.Stats.C57_metric_sup
  Apop.Stats.C58_biased
  Apop.Stats.C58_values
  Apop.Stats.C59_out
  Apop.Stats.C59_sum_one
  Apop.Stats.C59_sum_zero
  Apop.Stats.C59_range
  Apop.Stats.C59_range_constant
  Apop.Stats.C59_mean_zero
  Apop.Stats.C59_standard
  Apop.Stats.C59_standard_constant
  Apop.Stats.C60_cov_cells
  Apop.Stats.C60_cov_symm
  Apop.Stats.C60_cov_psd
  Apop.Stats.C60_correlation
  Apop.Stats.C60_constant_nan
  Apop.Stats.C61_value
  Apop.Stats.C61_empty
  Apop.Stats.C61_negative
  Apop.Stats.C61_negative_zero_sum
  Apop.Stats.C61_scale
  Apop.Stats.C61_perm
  Apop.Stats.C61_bounds
  Apop.Stats.C61_uniform
  Apop.Pmf.C62_equal
  Apop.Pmf.C62_compress
  Apop.Pmf.C62_rows
  Apop.Pmf.C62_counts
  Apop.Pmf.C62_total
  Apop.Pmf.C62_idempotent
  Apop.Pmf.C63_cmf
  Apop.Pmf.C63_row
  Apop.Pmf.C63_interval
  Apop.Pmf.C63_ends
  Apop.Pmf.C63_zero_draw
  Apop.Pmf.C64_in_range
  Apop.Pmf.C64_last_never
  Apop.Pmf.C64_others
  Apop.Pmf.C65_prob
  Apop.Pmf.C65_compressed
  Apop.Pmf.C65_sum_one
  Apop.Pmf.C65_repeated
  Apop.Pmf.C66_weighted
  Apop.Pmf.C66_above_one
  Apop.Pmf.C66_unweighted
  Apop.Pmf.C66_absent
  Apop.Pmf.C66_first
  Apop.Pmf.C67_value
  Apop.Pmf.C67_nonneg
  Apop.Pmf.C67_zero_iff
  Apop.Pmf.C67_unsynced_nan
  Apop.Cache.C68_safe
  Apop.Pmf.C69_fresh
  Apop.Pmf.C69_stale
  Apop.Pmf.C69_impossible_row
  Apop.Pmf.C69_overread
  Apop.Mcmc.C70_chain
  Apop.Mcmc.C71_rows
  Apop.Mcmc.C71_overrun
  Apop.Mcmc.C71_default_ten
  Apop.Mcmc.C72_accept
  Apop.Mcmc.C72_kernel
  Apop.Mcmc.C72_balance
  Apop.Mcmc.C72_stationary
  Apop.Mcmc.C72_general_total
  Apop.Mcmc.C72_general_stationary
  Apop.Mcmc.C72_block_stationary
  Apop.Mcmc.C72_normal
  Apop.Mcmc.C72_normal_stationary
  Apop.Dist.C74_normal
  Apop.Dist.C74_lognormal
  Apop.Dist.C74_exponential
  Apop.Dist.C74_gamma
  Apop.Dist.C74_beta
  Apop.Dist.C74_bernoulli
  Apop.Dist.C74_poisson
  Apop.Dist.C74_poisson_outside
  Apop.Dist.C74_zipf
  Apop.Dist.C74_yule
  Apop.Dist.C74_t
  Apop.Dist.C74_uniform
  Apop.Dist.C74_arrangement
  Apop.Dist.C74_beta_outside_refuted
  Apop.Dist.C74_gamma_zero_refuted
  Apop.Dist.C74_exponential_negative_refuted
  Apop.Dist.C75_normal
  Apop.Dist.C75_lognormal
  Apop.Dist.C75_exponential
  Apop.Dist.C75_gamma
  Apop.Dist.C75_beta
  Apop.Dist.C75_yule
  Apop.Dist.C75_poisson
  Apop.Dist.C75_poisson_vector_refuted
  Apop.Dist.C75_gamma_zero_refuted
  Apop.Dist.C76_exponential
  Apop.Dist.C76_exponential_both_refuted
  Apop.Dist.C76_poisson
  Apop.Dist.C76_bernoulli
  Apop.Dist.C76_uniform
  Apop.Dist.C76_normal_mean
  Apop.Dist.C76_normal_matrix
  Apop.Dist.C76_normal_vector_refuted
  Apop.Dist.C76_normal_both
  Apop.Dist.C77_beta_binomial
  Apop.Dist.C77_beta_binomial_params
  Apop.Dist.C77_beta_bernoulli
  Apop.Dist.C77_gamma_exponential
  Apop.Dist.C77_gamma_poisson
  Apop.Dist.C77_gamma_exponential_wide_refuted
  Apop.Dist.C77_gamma_poisson_wide_refuted
  Apop.Dist.C77_normal_normal
  Apop.Dist.C77_normal_normal_params
  Apop.Dist.C77_normal_normal_vector
  Apop.Dist.C77_bernoulli_steps
  Apop.Dist.C77_exponential_steps
  Apop.Dist.C77_poisson_steps
  Apop.Dist.C78_gamma
  Apop.Dist.C78_beta
  Apop.Dist.C78_gamma_mean
  Apop.Dist.C78_gamma_both_refuted
  Apop.Dist.C78_beta_both_refuted
  Apop.Fix.C79_fill
  Apop.Fix.C79_history
  Apop.Fix.C79_pack
  Apop.Fix.C79_roundtrip
  Apop.Dcons.C80_history
  Apop.Dcons.C80_density
  Apop.Dcons.C80_law
  Apop.Dcons.C80_law_limit
  Apop.Dcons.C80_scaling
  Apop.Dcons.C80_copy_refuted
  Apop.Mix.C81_odds
  Apop.Mix.C81_weights
  Apop.Mix.C81_loglik
  Apop.Mix.C81_loglik_refuted
  Apop.Mix.C81_cdf
  Apop.Mix.C81_unpack
  Apop.Mix.C81_unpack_refuted
  Apop.Mix.C81_constraint_refuted
  Apop.Cross.C82_loglik
  Apop.Cross.C82_p
  Apop.Cross.C82_estimate
  Apop.Cross.C82_two
  Apop.Cross.C82_draw
  Apop.Cross.C82_assembly
  Apop.Cross.C82_rows_refuted
  Apop.Cross.C82_nested_refuted
  Apop.Uniq.C83_doubles
  Apop.Uniq.C83_strings
  Apop.Uniq.C83_vector
  Apop.Uniq.C83_text
  Apop.Uniq.C83_unique
  Apop.Factors.C84_dummies
  Apop.Factors.C84_one_hot
  Apop.Factors.C84_factors_text
  Apop.Factors.C84_factors_numbers
  Apop.Factors.C84_new_vector
  Apop.Dot.C85_matrix_matrix
  Apop.Dot.C85_vector_matrix
  Apop.Dot.C85_matrix_vector
  Apop.Dot.C85_vector_vector
  Apop.Dot.C85_parts
  Apop.Dot.C85_names
  Apop.Dot.C85_assoc
  Apop.Ols.C86_when
  Apop.Ols.C86_normal
  Apop.Ols.C86_least
  Apop.Ols.C86_exact
  Apop.Ols.C86_shift
  Apop.Ols.C86_covariance
  Apop.Ols.C86_page
  Apop.Ols.C86_residual_refuted
  Apop.Ols.C86_weighted_page
  Apop.Ols.C86_shuffle
  Apop.Ols.C87_r2
  Apop.Ols.C87_adjusted
  Apop.Ols.C87_adjusted_refuted
  Apop.Ols.C87_weighted_refuted
  Apop.LinCon.C88_met
  Apop.LinCon.C88_single
  Apop.LinCon.C88_single_margin
  Apop.LinCon.C88_margin_refuted
  Apop.LinCon.C88_default
  Apop.LinCon.C88_several_refuted
  Apop.LinCon.C88_history_refuted
  Apop.LinCon.C88_history_case_refuted
  Apop.Jack.C89_pseudovalues
  Apop.Jack.C89_value
  Apop.Jack.C89_mean
  Apop.Jack.C89_scale_refuted
  Apop.Jack.C89_nonneg
  Apop.Boot.C90_ignore
  Apop.Boot.C90_clean
  Apop.Rake.C91_notes
  Apop.Rake.C91_margins
  Apop.Rake.C91_nonneg
  Apop.Rake.C91_converges
  Apop.Rake.C91_distance
  Apop.Rake.C91_error
  Apop.Rake.C91_fixed
  Apop.Rake.C91_loglinear
  Apop.Rake.C91_outside
  Apop.Rake.C91_start
  Apop.Rake.C91_error_refuted
  Apop.Rake.C91_error_met_refuted
  Apop.MovAvg.C92_value
  Apop.MovAvg.C92_between
  Apop.MovAvg.C92_one
  Apop.MovAvg.C92_wide_refuted
  Apop.MovAvg.C92_null
  Apop.Bins.C93_bin
  Apop.Bins.C93_columns
  Apop.Bins.C93_idempotent
  Apop.Bins.C93_default
  Apop.Bins.C93_constant_refuted
  Apop.Bins.C93_zero_refuted
  Apop.Bins.C93_top_rounded_refuted
  Apop.Smirnov.C94_distribution
  Apop.Smirnov.C94_pvalue
  Apop.Smirnov.C94_orders
  Apop.Smirnov.C94_symm
  Apop.Kolmogorov.C95_power
  Apop.Kolmogorov.C95_zero_refuted
  Apop.Kolmogorov.C95_formula
  Apop.Kolmogorov.C95_one
  Apop.Ks.C96_at_observations
  Apop.Ks.C96_one_sample
  Apop.Ks.C96_below_refuted
  Apop.Ks.C96_two_samples_refuted
  Apop.Ks.C96_second_loop_refuted
  Apop.Ks.C96_pvalue
  Apop.Ks.C96_pvalue_two
  Apop.Gof.C97_statistic
  Apop.Gof.C97_impossible
  Apop.Gof.C97_zero_iff
  Apop.Gof.C97_skipped_refuted
  Apop.Gof.C97_empty_bin_refuted
  Apop.Gof.C97_normalised_refuted
  Apop.Gof.C97_counts_refuted
  Apop.TTest.C98_tails
  Apop.TTest.C98_two_samples
  Apop.TTest.C98_one
  Apop.TTest.C98_statistic_refuted
  Apop.TTest.C98_exchange
  Apop.TTest.C98_units
  Apop.TTest.C98_constant
  Apop.TTest.C98_paired
  Apop.FTest.C99_statistic
  Apop.FTest.C99_df_refuted
  Apop.FTest.C99_error
  Apop.FTest.C99_zero_iff
  Apop.FTest.C99_constant_refuted
  Apop.Indep.C100_statistic
  Apop.Indep.C100_zero_iff
  Apop.Indep.C100_transpose
  Apop.Indep.C100_empty_row_refuted
  Apop.Indep.C100_fraction_refuted
  Apop.Indep.C100_below_one_refuted
  Apop.Indep.C100_one_row_refuted
  Apop.Anova.C101_total
  Apop.Anova.C101_adds
  Apop.Anova.C101_ratios
  Apop.Anova.C101_tests
  Apop.Anova.C101_identity
  Apop.Anova.C101_between_refuted
  Apop.Anova.C101_example_refuted
  Apop.Anova.C101_df_refuted
  Apop.Anova.C101_tails_refuted
  Apop.Lookup.C102_one_tail
  Apop.Lookup.C102_defaults
  Apop.Lookup.C102_case
  Apop.Lookup.C102_two_tails
  Apop.Lookup.C102_normal_refuted
  Apop.Lookup.C102_uniform_refuted
  Apop.Lookup.C102_null_refuted
  Apop.Lookup.C102_zero_refuted
  Apop.Lookup.C102_lognormal_refuted
  Apop.Sql.C103_sample
  Apop.Sql.C103_population
  Apop.Sql.C103_variance_refuted
  Apop.Sql.C103_skew
  Apop.Sql.C103_kurtosis_refuted
  Apop.Sql.C103_kurtosis
  Apop.Sql.C103_few
  Apop.Sql.C103_one
  Apop.Sql.C103_null_refuted
  Apop.Sql.C103_null_example_refuted
  Apop.Db.ToData.C104_contents
  Apop.Db.ToData.C104_name_column
  Apop.Db.ToData.C104_row_names
  Apop.Db.ToData.C104_null_name_refuted
  Apop.Db.ToData.C104_error
  Apop.Db.ToData.C104_vector
  Apop.Db.ToData.C104_float
  Apop.Db.ToData.C104_vector_refuted
  Apop.Db.ToData.C104_value
  Apop.Db.ToText.C105_contents
  Apop.Db.ToText.C105_format_refuted
  Apop.Db.ToText.C105_only_names_refuted
  Apop.Db.Mixed.C106_contents
  Apop.Db.Mixed.C106_one_more_refuted
  Apop.Db.Mixed.C106_many_more_refuted
  Apop.Db.Mixed.C106_fewer
  Apop.Db.Mixed.C106_two_names_refuted
  Apop.Db.ToDb.C107_new_table
  Apop.Db.ToDb.C107_positions
  Apop.Db.ToDb.C107_mismatch
  Apop.Db.ToDb.C107_append
  Apop.Db.ToDb.C107_names_refuted
  Apop.Db.ToDb.C107_empty_name_refuted
  Apop.Db.ToDb.C107_ragged_refuted
  Apop.Db.ToDb.C107_weights_refuted
  Apop.Db.ToDb.C108_table_exists
  Apop.Db.ToDb.C108_print
  Apop.Db.ToDb.C108_case_overwrite_refuted
  Apop.Mod.C109_prep
  Apop.Mod.C109_error
  Apop.Mod.C109_noop
  Apop.Mod.C109_set_parameters
  Apop.Mod.C109_set_parameters_matrix
  Apop.Mod.C109_set_too_few
  Apop.Mod.C110_consistent
  Apop.Mod.C110_own
  Apop.Mod.C110_order
  Apop.Mod.C110_negative
  Apop.Mod.Cdf.C111_history
  Apop.Mod.Cdf.C111_range
  Apop.Mod.Cdf.C111_monotone
  Apop.Mod.Cdf.C111_example
  Apop.Mod.Cdf.C112_no_leak
  Apop.Mod.Cdf.C112_safe
  Apop.Mod.Cdf.C112_leak_refuted
  Apop.Mod.C114_score
  Apop.Mod.C114_predict
  Apop.Mod.C114_predict_refuted
  Apop.Out.C115_print_read
  Apop.Out.C115_print_read_nohead
  Apop.Out.C115_rounding
  Apop.Out.C115_print_read_exact
  Apop.Out.C115_small_lost
  Apop.Out.C115_out_of_range_ub
  Apop.Out.C115_weights_refuted
  Apop.Out.C115_title
  Apop.Out.C116_print_db
  Apop.Out.C117_vector_tab
  Apop.Out.C117_vector_comma_refuted
  Apop.Out.C117_vector_only
  Apop.Out.C117_long_vector_cut
  Apop.Out.C117_weights_only_nothing
  Apop.Mle.C119_gradient_close
  Apop.Mle.C119_gradient_exact
  Apop.Mle.C119_gradient_keeps_others
  Apop.Mle.C119_gradient_moves_last_refuted
  Apop.Mle.C119_penalty_sign_refuted
  Apop.Mle.C120_hessian_symmetric
  Apop.Mle.C120_hessian_exact
  Apop.Mle.C120_hessian_keeps_others
  Apop.Mle.C120_hessian_moves_last_refuted
  Apop.Mle.C121_covariance
  Apop.Mle.C121_covariance_posdef
  Apop.Mle.C121_singular_refuted
  Apop.Mle.Shell.C122_path_complete
  Apop.Mle.Shell.C122_no_path
  Apop.Mle.Shell.C122_negshell
  Apop.Mle.Shell.C123_reported
  Apop.Mle.Shell.C123_not_best_refuted
  Apop.Mle.Shell.C123_freed_refuted
  Apop.Mle.AnnealStatus.C124_status_anneal
  Apop.Mle.AnnealStatus.C124_anneal_nan
  Apop.Mle.AnnealStatus.C124_anneal_interrupt_refuted
  Apop.Mle.Status.C124_status_cg
  Apop.Mle.Status.C124_status_cg_cases
  Apop.Mle.Status.C124_status_simplex
  Apop.Mle.Status.C124_simplex_zero_refuted
  Apop.Mle.Status.C124_cg_zero_refuted
  Apop.Mle.Status.C124_nonzero_refuted
  Apop.Mle.Status.C125_method_table
  Apop.Mle.Status.C125_default
  Apop.Mle.Status.C125_unknown
  Apop.Mle.Status.C125_short_start_refuted
  Apop.Mle.Status.C125_parts
  Apop.Mle.Restart.C126_restart
  Apop.Mle.Restart.C126_diverged
  Apop.Mle.Restart.C126_never_worse
  Apop.Mle.Restart.C126_matrix_nan_refuted
  Apop.Mle.Restart.C126_es_ignored_refuted
  Apop.Mle.Restart.C126_ns_truncates_refuted
  Apop.Mle.Anneal.C127_best_of_seen
  Apop.Mle.Anneal.C127_interrupt_refuted
  Apop.Mle.Anneal.C127_step_small
  Apop.Mle.Anneal.C127_step_bound
  Apop.Mle.Anneal.C127_scale
  Apop.Mle.Anneal.C127_step_long_refuted
  Apop.Mle.Anneal.C127_one_parameter_grid
  Apop.Mle.Cycle.C128_stops
  Apop.Mle.Cycle.C128_not_worse
  Apop.Mle.Cycle.C128_terminates
  Apop.Mle.Cycle.C128_endless_refuted
  Apop.Mle.Cycle.C129_one_free
  Apop.Mle.Cycle.C129_size
  Apop.Mle.Cycle.C129_two_free_refuted
  Apop.Choice.C130_row
  Apop.Choice.C130_distribution
  Apop.Choice.C130_sample
  Apop.Choice.C130_overflow
  Apop.Choice.C130_unknown_outcome_refuted
  Apop.Choice.C131_row
  Apop.Choice.C131_distribution
  Apop.Choice.C131_agrees
  Apop.Choice.C132_ll
  Apop.Choice.C132_finite
  Apop.Choice.C132_score
  Apop.Choice.C133_sum_of_binary_partial
  Apop.Choice.C133_ignored_columns_refuted
  Apop.Choice.C133_own_columns_refuted
  Apop.Choice.C133_unchosen_refuted
  Apop.Choice.C134_given_page
  Apop.Choice.C134_raw_unnamed
  Apop.Choice.C134_raw_numbered
  Apop.Choice.C134_raw_vector_refuted
  Apop.Choice.C135_magnitude
  Apop.Choice.C135_geometric
  Apop.Choice.C135_shape
  Apop.Choice.C136_weights_partial
  Apop.Choice.C136_unwritten_refuted
  Apop.Choice.C136_overrun_refuted
  Apop.Choice.C136_inputs_refuted
  Apop.Density.C137_ll
  Apop.Density.C137_integrates
  Apop.Density.C138_cdf
  Apop.Density.C138_monotone
  Apop.Density.C138_range
  Apop.Density.C139_draw
  Apop.Density.C139_share
  Apop.Density.C139_unweighted_refuted
  Apop.Density.Mvn.C140_ll
  Apop.Density.Mvn.C140_integrates
  Apop.Density.Mvn.C140_degenerate
  Apop.Density.Mvn.C140_one_dimension
  Apop.Density.Mvn.C140_asymmetric_refuted
  Apop.Density.Mvn.C141_mean_is_best
  Apop.Density.Mvn.C141_few_rows
  Apop.Density.Mvn.C141_covariance_refuted
  Apop.Density.Mvn.C142_law
  Apop.Density.Mvn.C142_draw
  Apop.Density.Dirichlet.C143_ll
  Apop.Density.Dirichlet.C143_score
  Apop.Density.Dirichlet.C143_beta
  Apop.Density.Dirichlet.C143_tiny
  Apop.Density.Dirichlet.C143_not_shares_refuted
  Apop.Density.Dirichlet.C143_negative_refuted
  Apop.Transform.Coord.C144_ll
  Apop.Transform.Coord.C144_missing
  Apop.Transform.Coord.C144_independent
  Apop.Transform.Coord.C144_density
  Apop.Transform.Coord.C144_lognormal
  Apop.Transform.Coord.C144_example_refuted
  Apop.Transform.Coord.C144_decreasing_refuted
  Apop.Transform.Coord.C145_parameters
  Apop.Transform.Coord.C145_copy_refuted
  Apop.Transform.Coord.C145_two_estimates_refuted
  Apop.Transform.Coord.C145_no_settings_refuted
  Apop.Dist.Multinomial.C146_ll
  Apop.Dist.Multinomial.C146_ll_two
  Apop.Dist.Multinomial.C146_distribution
  Apop.Dist.Multinomial.C146_two_draws_refuted
  Apop.Dist.Multinomial.C146_total_refuted
  Apop.Dist.Multinomial.C146_short_row_refuted
  Apop.Dist.Multinomial.C147_estimate
  Apop.Dist.Multinomial.C147_best
  Apop.Dist.Multinomial.C147_covariance
  Apop.Dist.Multinomial.C147_variance_refuted
  Apop.Dist.Multinomial.C147_total
  Apop.Dist.Multinomial.C148_law
  Apop.Dist.Multinomial.C148_restores
  Apop.Dist.Multinomial.C148_restores_refuted
  Apop.Dist.Multinomial.C148_binomial_refuted
  Apop.Dist.Multinomial.C148_dsize_refuted
  Apop.Rng.C149_ends
  Apop.Rng.C149_law
  Apop.Rng.C149_range
  Apop.Rng.C149_limit
  Apop.Rng.C149_overflow_refuted
  Apop.Rng.C149_one_refuted
  Apop.Rng.C150_law
  Apop.Rng.C150_parameter_refuted
  Apop.Rng.C151_point
  Apop.Rng.C151_uniform
  Apop.Rng.C151_uniform_density
  Apop.Rng.C151_exponential
  Apop.Rng.C151_exponential_density
  Apop.Rng.C151_bernoulli
  Apop.Rng.C151_normal
  Apop.Rng.C151_lognormal
  Apop.Rng.C151_t
  Apop.Rng.C151_no_data_refuted
  Apop.Arms.C152_violation
  Apop.Arms.C152_above
  Apop.Arms.C152_initial
  Apop.Arms.C153_case
  Apop.Arms.C153_reach
  Apop.Arms.C153_above
  Apop.Arms.C153_update
  Apop.Arms.C153_points
  Apop.Arms.C153_inside
  Apop.Arms.C154_flat_refuted
  Apop.Arms.C154_invert
  Apop.Arms.C154_height
  Apop.Arms.C154_over
  Apop.Arms.C154_ymax
  Apop.Arms.C154_draw
  Apop.Arms.C155_plain
  Apop.Arms.C155_moves
  Apop.Arms.C155_balance
  Apop.Arms.C155_case
  Apop.Arms.C155_law
  Apop.Arms.C155_law_metro
  Apop.Ols.C156_by_number
  Apop.Ols.C156_by_name
  Apop.Ols.C156_moments
  Apop.Ols.C156_when
  Apop.Ols.C156_exact
  Apop.Ols.C156_page
  Apop.Ols.C156_covariance
  Apop.Ols.C156_least_squares
  Apop.Ols.C156_no_instruments_refuted
  Apop.Ols.C156_weights_refuted
  Apop.Ols.C157_value
  Apop.Ols.C157_sample_variance
  Apop.Ols.C157_unprepared
  Apop.Ols.C157_maximum
  Apop.Ols.C157_own
  Apop.Ols.C157_reported
  Apop.Ols.C157_stale_refuted
  Apop.Ols.C157_weights
  Apop.Ols.C157_weights_refuted
  Apop.Ols.C157_own_weights_refuted
  Apop.Ols.C158_score
  Apop.Ols.C158_sign_refuted
  Apop.Ols.C158_zero
  Apop.Ols.C158_unprepared_refuted
  Apop.Ols.C159_predict
  Apop.Ols.C159_idempotent
  Apop.Ols.C159_own
  Apop.Ols.C159_unread
  Apop.Ols.C160_draw
  Apop.Ols.C160_draw_one
  Apop.Ols.C160_law
  Apop.Ols.C160_variance
  Apop.Ols.C160_size_refuted
  Apop.Ols.C160_improper
  Apop.Ols.C160_pmf_refuted
  Apop.ParamTest.C161_p_value
  Apop.ParamTest.C161_bounds
  Apop.ParamTest.C161_perfect
  Apop.ParamTest.C161_default_refuted
  Apop.Linalg.C162_determinant
  Apop.Linalg.C162_inverse
  Apop.Linalg.C162_both
  Apop.Linalg.C162_not_square
  Apop.Linalg.C162_zero_refuted
  Apop.Linalg.C163_iff
  Apop.Linalg.C163_null
  Apop.Linalg.C163_sound_any
  Apop.Linalg.C163_semidefinite_refuted
  Apop.Linalg.C163_asymmetric_refuted
  Apop.Linalg.C163_tall_refuted
  Apop.Linalg.C164_result
  Apop.Linalg.C164_zero
  Apop.Linalg.C164_idempotent
  Apop.Linalg.C164_trace_zero_refuted
  Apop.Linalg.C164_closest_refuted
  Apop.Linalg.C164_terminates
  Apop.Linalg.C164_returns
  Apop.Linalg.C164_endless_refuted
  Apop.Linalg.C165_centred
  Apop.Linalg.C165_components
  Apop.Linalg.C165_sum
  Apop.Linalg.C165_best
  Apop.Linalg.C165_too_many
  Apop.Linalg.C165_constant_refuted
  Apop.Linalg.MvGamma.C166_value
  Apop.Linalg.MvGamma.C166_positive
  Apop.Linalg.MvGamma.C166_recursion
  Apop.Linalg.MvGamma.C166_nan
  Apop.Linalg.MvGamma.C166_even_refuted
  Apop.Mcmc.Adapt.C167_form
  Apop.Mcmc.Adapt.C167_direction
  Apop.Mcmc.Adapt.C167_little
  Apop.Mcmc.Adapt.C167_stationary
  Apop.Mcmc.C168_retry
  Apop.Mcmc.C168_stationary
  Apop.Mcmc.C168_biased
  Apop.Mcmc.C168_positive_refuted
  Apop.Mcmc.C168_oversampled_refuted
  Apop.Update.C169_rows
  Apop.Update.C169_never
  Apop.Update.C169_posterior
  Apop.Update.C170_product
  Apop.Update.C170_posterior
  Apop.Update.C170_constraint
  Apop.Impute.C171_search
  Apop.Impute.C171_impute
  Apop.Stats.C172_summary
  Apop.Stats.C172_weighted
  Apop.Stats.C172_one_row
  Apop.Stats.C172_median_even_refuted
  Apop.Stats.C172_median_weights_refuted
  Apop.Stats.C172_correlation
  Apop.Stats.C172_affine
  Apop.Stats.C172_constant
  Apop.Entropy.C173_normal
  Apop.Entropy.C173_draws
  Apop.Entropy.C173_kl
  Apop.Entropy.C173_kl_infinite
  Apop.Entropy.C173_kl_nonneg
  Apop.LinCon.C174_multinomial
  Apop.LinCon.C174_t
  Apop.LinCon.C174_t_zero_refuted
  Apop.LinCon.C174_single
  Apop.LinCon.C174_bernoulli
  Apop.LinCon.C174_positive
  Apop.LinCon.C174_beta
  Apop.LinCon.C174_overshoot_refuted
  Apop.LinCon.C174_dirichlet_refuted
  Apop.LinCon.C174_shared_refuted
  Apop.Rake.C175_synthetic
  Apop.Rake.C175_nudged
  Apop.Rake.C175_init
  Apop.Rake.C175_complete
  Apop.Rake.C175_errors
  Apop.Rake.C175_nudge_lost_refuted
  Apop.Rake.C175_nudge_twice_refuted
  Apop.Map.C176_vector_apply
  Apop.Map.C176_matrix_map
  Apop.Map.C176_matrix_apply
  Apop.Map.C176_matrix_map_all
  Apop.Map.C176_sums
  Apop.Map.C176_count
  Apop.Map.C176_null
  Apop.Map.C176_log_exp
  Apop.Db.Session.C177_crash
  Apop.Db.Session.C177_import
  Apop.Db.Session.C177_import_wrapped
  Apop.Db.Session.C177_crosstab
  Apop.Db.Session.C177_crosstab_wrapped_refuted
  Apop.Db.Session.C177_reopen_locked_refuted
  Apop.Db.Import.C178_new
  Apop.Db.Import.C178_append
  Apop.Db.Import.C178_delete
  Apop.Db.Import.C178_overwrite
  Apop.Db.Import.C178_exists_nothing
  Apop.Db.Import.C178_others
  Apop.Db.Import.C178_kept
  Apop.Db.Import.C178_lost_refuted
  Apop.Db.Import.C178_width
  Apop.Db.Import.C178_row_names_refuted
  Apop.Db.Import.C178_wide
  Apop.Db.Import.C178_file
  Apop.Dist.C179_beta_moments
  Apop.Dist.C179_gamma_moments
  Apop.Dist.C179_beta_from
  Apop.Dist.C179_beta_range_refuted
  Apop.Dist.C179_beta_refused
  Apop.Dist.C179_gamma_estimate
  Apop.Dist.C179_beta_estimate
  Apop.Dist.C179_lognormal_matrix
  Apop.Dist.C179_lognormal_nothing
  Apop.Dist.C179_lognormal_both_refuted
  Apop.Dist.C179_lognormal_mean
  Apop.Dist.C179_lognormal_predict_refuted
  Apop.Conc.C180_draws
  Apop.Conc.C180_bad_density
  Apop.Conc.C180_warm
  Apop.Conc.C180_ends
  Apop.Conc.C180_bare_refuted
  Apop.Conc.C180_bare_alone
  Apop.Conc.C180_cdf_refuted
  Apop.Conc.C180_cdf_draw_refuted
  Apop.Sect.C181_no_deadlock
  Apop.Sect.C181_all_end
  Apop.Sect.C181_exclusive
  Apop.Sect.C181_cross_refuted
  Apop.RngPar.C182_own
  Apop.RngPar.C182_distinct
  Apop.RngPar.C182_table
  Apop.RngPar.C182_warm
  Apop.RngPar.C182_warm_ends
  Apop.RngPar.C182_cold_refuted
  Apop.Settings.Owner.C183_mixture_copy_refuted
  Apop.Settings.Owner.C183_arms_copy_refuted
  Apop.Settings.Owner.C183_loess_copy_refuted
  Apop.Settings.Owner.C183_kernel
  Apop.Settings.Owner.C183_mcmc
  Apop.Settings.Owner.C183_lm
  Apop.Settings.Owner.C183_dconstrain
  Apop.Settings.Owner.C183_mixture
  Apop.Settings.Owner.C183_arms
  Apop.Settings.Owner.C183_loess
  Apop.Fisher.C184_probability
  Apop.Fisher.C184_relative_error
  Apop.Fisher.C184_above_one_refuted
  Apop.Fisher.F3.C185_fisher_test
  Apop.Fisher.F3.C185_fisher_test_exact
  Apop.Fisher.C185_p_value
  Apop.Fisher.C185_p_value_exact
  Apop.Fisher.C186_room
  Apop.Fisher.C186_parity
  Apop.Fisher.C186_room_small
  Apop.Fisher.C186_overlap_refuted
  Apop.Fisher.C186_total_refuted
  Apop.Fisher.C187_two_by_three
  Apop.Fisher.C187_one_row
  Apop.Fisher.C187_two_columns_no_error
  Apop.Fisher.C187_two_columns
  Apop.Fisher.C187_two_columns_exact
  Apop.Fisher.C188_keys
  Apop.Fisher.C188_zeros
  Apop.Fisher.C188_one_column
  Apop.Fisher.C188_nan_refuted
  Apop.Fisher.C188_truncated
  Apop.Fisher.C188_negative
  Apop.DummyOpts.C189_append
  Apop.DummyOpts.C189_remove
  Apop.DummyOpts.C189_remove_append
  Apop.DummyOpts.C189_in_place_all
  Apop.DummyOpts.C189_in_place
  Apop.DummyOpts.C189_in_place_text_refuted
  Apop.Show.C190_cells
  Apop.Show.C190_empty_column_refuted
  Apop.OlsNames.C191_lookup
  Apop.OlsNames.C191_predicted_residual
  Apop.OlsNames.C191_observed_refuted
  Apop.OlsNames.C192_outcome
  Apop.OlsNames.C192_default
  Apop.OlsNames.C192_all_off_refuted
  Apop.OlsNames.C192_covariance_only_refuted
  Apop.OlsNames.C192_no_expected_refuted
  Apop.Fisher.F3.C193_longest_path
  Apop.Fisher.F3.C194_reads_before_array_refuted
  Apop.Fisher.F3.C195_shortest_path
  Apop.Fisher.F3.C195_value
  Apop.Fisher.F3.C195_shortest_path_returns
  Apop.Fisher.F3.C195_two_by_two_refuted
  Apop.Fisher.Isort.C196_isort_sorts
  Apop.Fisher.Isort.C196_f3xact_sort
  Apop.Fisher.Isort.C196_f2xact_sort
  Apop.Fisher.Isort.C196_long_vector_refuted
  Apop.Rake.C197_variables
  Apop.Rake.C197_more_than_six_refuted
  Apop.Rake.C197_given_list
  Apop.Dist.C199_bernoulli_draw
  Apop.Dist.C199_bernoulli_cdf
  Apop.Dist.C199_normal_mean_variance
  Apop.Dist.C199_normal_page_refuted
  Apop.Dist.C199_normal_predict
  Apop.Dist.C199_normal_predict_refuted
  Apop.Dist.C199_bernoulli_variance
  Apop.Dist.C199_bernoulli_page_refuted
  Apop.Dist.C200_moments
  Apop.Dist.C200_likelihood
  Apop.Dist.C200_small_refuted
  Apop.Dist.C200_both_parts_refuted
  Apop.Mod.C201_first
  Apop.Mod.C201_again
  Apop.Mod.C201_report_stale
  Apop.Mod.C201_t_stale
  Apop.Mod.C201_report_refuted
  Apop.Mod.C201_t_first
  Apop.Mod.C201_t_refuted
  Apop.DrawRace.C202_one_setup
  Apop.DrawRace.C202_ends
  Apop.DrawRace.C202_right_chain
  Apop.DrawRace.C202_window
  Apop.BootCov.C203_poisson
  Apop.BootCov.C203_page
  Apop.BootCov.C203_again_refuted
  Apop.MixDraw.C204_draw
  Apop.MixDraw.C204_draws
  Apop.MixDraw.C204_odds
  Apop.MixDraw.C204_zero
  Apop.MixDraw.C204_setup
  Apop.MixDraw.C204_stale_refuted
  Apop.MixDraw.C204_dsize_refuted
  Apop.VtRace.C205_calm
  Apop.VtRace.C205_registered
  Apop.VtRace.C205_ends
  Apop.CrossTrip.C206_trip
  Apop.CrossTrip.C206_digits
  Apop.CrossTrip.C206_counts
  Apop.CrossTrip.C206_digits_refuted
  Apop.CrossTrip.C206_infinite_refuted
  Apop.CrossTrip.C206_quote_refuted
  Apop.CrossTrip.C206_nan_refuted
  Apop.CrossTrip.C206_twice_refuted
  Apop.Fix.C207_history
  Apop.Fix.C207_get_base_refuted
  Apop.Fix.C207_fix_again_refuted
  Apop.UpdSetup.C208_ends
  Apop.Db.ToDbWide.C209_row
  Apop.Db.ToDbWide.C209_all
  Apop.Mix.C210_fits
  Apop.Mix.C210_em
  Apop.Mix.C210_objects
  Apop.Mix.C210_stuck_refuted
  Apop.Mix.C210_none_refuted
  Apop.Predict.C212_complete
  Apop.Predict.C212_default
  Apop.Predict.C212_later_pages_refuted
  Apop.Pmf.FromModel.C213_normalize
  Apop.Pmf.FromModel.C213_rows
  Apop.Pmf.FromModel.C213_portions
  Apop.Pmf.FromModel.C213_weights_refuted
  Apop.Pmf.FromModel.C213_uncompressed_refuted
  Apop.Dist.BetaDraw.C214_beta_draws
  Apop.Dist.BetaDraw.C214_beta_never_refuted
  Apop.Dist.C214_exponential
  Apop.Dist.C214_uniform
  Apop.Dist.C214_binomial
  Apop.Dist.C214_binomial_negative_refuted
  Apop.Dist.C214_beta_point_refuted
  Apop.NameMem.C215_blocks
  Apop.NameMem.C215_separate
  Apop.NameMem.C215_all_freed
  Apop.NameMem.C215_title_refuted
  Apop.NameMem.C215_copy_refuted
  Apop.NameMem.C215_self_refuted

[propext, Quot.sound] (146 theorems)
  Apop.Names.C01_add_names_null_refuted
  Apop.Names.C01_adds_append
  Apop.Names.C01_adds_return
  Apop.Names.C03_stack_self
  Apop.Pages.C05_free_terminates
  Apop.Pages.C05_free_self_loop
  Apop.Realloc.C07_zero_height_ub
  Apop.Realloc.C07_views_refused
  Apop.Realloc.C08_vector_realloc
  Apop.Realloc.C08_views_refused
  Apop.Realloc.C08_null
  Apop.Text.C09_grow_and_narrow_ub
  Apop.Text.C10_huge_position_ub
  Apop.Access.C11_get_body
  Apop.Access.C11_set_body
  Apop.Stack.C12_matrix_stack_rows
  Apop.Stack.C12_row_names_aligned
  Apop.Stack.C12_width_mismatch_drops_matrix
  Apop.Stack.C13_vector_only_overrun
  Apop.Rows.C14_short_names_stale
  Apop.Rows.C14_ragged_stale
  Apop.Rows.C15_rm_columns
  Apop.Rows.C15_short_drop_ub
  Apop.Transpose.C16_in_place_lookup_ub
  Apop.Pages.C17_add_page
  Apop.Pack.C21_pack
  Apop.Pack.C21_roundtrip
  Apop.Pack.C21_roundtrip_info
  Apop.Pack.C21_pack_first_page
  Apop.Pack.C21_pack_wrong_size
  Apop.Pack.C21_first_info_refuted
  Apop.Pack.C21_info_pages_refuted
  Apop.Pack.C21_text_page_last_refuted
  Apop.Pack.C21_capital_N_refuted
  Apop.Conv.C22_bins
  Apop.Rows.C23_long_weights_ub
  Apop.Settings.C24_copy_missing
  Apop.Vtable.C25_map_partial
  Apop.Vtable.C25_adds
  Apop.Asst.C26_prune_inverted_refuted
  Apop.Asst.C27_history
  Apop.Asst.C27_threads_short_sums
  Apop.Asst.C28_columns
  Apop.Asst.C28_columns_total
  Apop.Asst.C28_no_overlap
  Apop.Asst.C28_empty_match_diverges
  Apop.Asst.C29_same_and_different
  Apop.Asst.C29_seeds
  Apop.Asst.C29_minus_one_refuted
  Apop.Asst.C29_negative_ub
  Apop.Asst.C29_race_free
  Apop.Parse.C32_byte255_ends
  Apop.Parse.C32_after_end_ub
  Apop.Parse.C32_after_end_stale
  Apop.Parse.C34_split_flatten
  Apop.Parse.C35_missing
  Apop.Parse.C35_number
  Apop.Conv.C37_search_diverges
  Apop.Conv.C38_all_names_partial
  Apop.Conv.C39_vector_to_matrix
  Apop.Page.C40_names
  Apop.Page.C40_memcpy_errors
  Apop.Page.C40_text_overflow
  Apop.Page.C40_text_overflow_rows
  Apop.Views.C41_subvector
  Apop.Views.C41_negative_length_accepted
  Apop.Views.C41_rows_view
  Apop.Views.C41_row_view
  Apop.Views.C41_rows_view_one_name
  Apop.Views.C41_rows_out_of_range
  Apop.Access.C43_named_elements_aligned
  Apop.Settings.C44_model_free
  Apop.Map.C46_m_of_vector_unwritten
  Apop.Map.C46_void_pages_crash
  Apop.Map.C48_columns_inplace_overrun
  Apop.Map.C48_row_sets
  Apop.Map.C48_row_sets_input
  Apop.Map.C48_row_sets_inplace
  Apop.Map.C48_row_sets_inplace_no_vector
  Apop.Map.C49_pages
  Apop.Map.C49_vector_only_garbage
  Apop.Map.C49_scalar_on_rows_zero
  Apop.Asst.C50_row
  Apop.Asst.C50_error_iff
  Apop.Asst.C50_given
  Apop.Stats.C51_sum
  Apop.Stats.C51_matrix_sum
  Apop.Stats.C51_mean
  Apop.Stats.C52_var_one
  Apop.Stats.C55_empty
  Apop.Mcmc.C73_blocks
  Apop.Mcmc.C73_info_page_refuted
  Apop.Dcons.C80_draw
  Apop.Factors.C84_bsearch
  Apop.Boot.C90_sample
  Apop.MovAvg.C92_window
  Apop.Indep.C100_one_column_refuted
  Apop.Db.ToDb.C107_empty
  Apop.Db.ToDb.C108_case_refuted
  Apop.Mod.C109_set_undetermined
  Apop.Out.Pg.C118_one_page
  Apop.Out.Pg.C118_pages_lost
  Apop.ParamTest.C161_df
  Apop.Stats.C172_names
  Apop.Rake.C175_columns
  Apop.Map.C176_matrix_apply_all
  Apop.Map.C176_ends
  Apop.Db.Session.C177_memory
  Apop.Db.Session.C177_open_failed_refuted
  Apop.Db.Session.C177_query
  Apop.Db.Import.C178_columns
  Apop.Db.Import.C178_case_refuted
  Apop.Db.Import.C178_default_name
  Apop.Db.Import.C178_literal
  Apop.Sect.C181_kernel_kernel_refuted
  Apop.Sect.C181_chain_chain_refuted
  Apop.DummyOpts.C189_in_place_last_refuted
  Apop.DummyOpts.C189_remove_wide_refuted
  Apop.Show.C190_aligned
  Apop.Show.C190_page
  Apop.Show.C190_pages
  Apop.Show.C190_extra_names_refuted
  Apop.OlsNames.C191_names_no_vector
  Apop.OlsNames.C191_names_with_vector
  Apop.OlsNames.C191_unnamed_vector_refuted
  Apop.OlsNames.C192_pages
  Apop.ParamModel.C198_vector_parameters
  Apop.ParamModel.C198_two_by_two
  Apop.ParamModel.C198_matrix_refuted
  Apop.DrawRace.C202_race_refuted
  Apop.BootCov.C203_declined
  Apop.BootCov.C203_bernoulli
  Apop.BootCov.C203_bernoulli_again_refuted
  Apop.VtRace.C205_race_refuted
  Apop.CrossTrip.C206_restored
  Apop.CrossTrip.C206_column_lost_refuted
  Apop.CrossTrip.C206_error_refuted
  Apop.UpdSetup.C208_table
  Apop.UpdSetup.C208_later
  Apop.UpdSetup.C208_own
  Apop.UpdSetup.C208_during_refuted
  Apop.Db.ToDbWide.C209_columns
  Apop.Db.ToDbWide.C209_rounding_refuted
  Apop.Db.ToDbWide.C209_name_refuted
  Apop.Map.C211_names
  Apop.Predict.C212_null_refuted

[propext] (108 theorems)
  Apop.Names.C02_reachable_good
  Apop.Names.C03_stack_appends
  Apop.Names.C03_stack_vector
  Apop.Names.C03_stack_unknown
  Apop.Names.C03_stack_self_vector_ub
  Apop.Names.C03_copy
  Apop.Names.C03_copy_lookup
  Apop.Page.C04_copy_error_on_later_page
  Apop.Page.C04_copy_error_with_text
  Apop.Pages.C05_free_longer_cycle_diverges
  Apop.Pages.C05_copy_longer_cycle_diverges
  Apop.Page.C06_calloc_zero
  Apop.Page.C06_narrowing
  Apop.Access.C11_not_found
  Apop.Access.C11_set_missing_part
  Apop.Access.C11_out_of_bounds_returns_zero
  Apop.Stack.C12_vector_stack
  Apop.Stack.C12_text_mismatch
  Apop.Stack.C12_vector_name_misplaced
  Apop.Rows.C14_nothing_given
  Apop.Transpose.C16_copy_percent
  Apop.Transpose.C16_text_names_backwards
  Apop.Transpose.C16_vector_only
  Apop.Pages.C17_get_page_defaults
  Apop.Pages.C17_rm_untitled_ub
  Apop.Sort.C19_row_names_refuted
  Apop.Sort.C19_mixed_case_refuted
  Apop.Sort.C19_no_columns_refuted
  Apop.Sort.C20_descending_refuted
  Apop.Conv.C22_min_bins_ignored
  Apop.Settings.C24_hash_collision_refuted
  Apop.Asst.C26_prune_separators_refuted
  Apop.Asst.C27_threads_refuted
  Apop.Asst.C28_plain_count_refuted
  Apop.Parse.C35_literal
  Apop.Parse.C35_prepared_text
  Apop.Parse.C35_apostrophe_no_literal
  Apop.Parse.C35_nan_text
  Apop.Conv.C36_text_too_few_refuted
  Apop.Conv.C36_text_one_too_few
  Apop.Conv.C36_text_percent_refuted
  Apop.Conv.C39_array_to_vector
  Apop.Asst.C42_draws_narrow
  Apop.Access.C43_null_name_overwrites
  Apop.Settings.C44_long_name_refuted
  Apop.Map.C46_scalar_on_rows
  Apop.Map.C46_void
  Apop.Map.C47_index_depends_on_shape
  Apop.Map.C48_no_matrix
  Apop.Map.C48_row_view
  Apop.Map.C49_null
  Apop.Asst.C50_error
  Apop.Pmf.C63_written
  Apop.Pmf.C63_vector_and_matrix
  Apop.Cache.C68_leak
  Apop.Fix.C79_second_page_refuted
  Apop.Factors.C84_old_list_refuted
  Apop.Factors.C84_unwritten_refuted
  Apop.Factors.C84_data_lost_refuted
  Apop.Factors.C84_vector_refuted
  Apop.Boot.C90_kept_refuted
  Apop.Boot.C90_first_refuted
  Apop.Boot.C90_error_refuted
  Apop.FTest.C99_contrast_refuted
  Apop.Db.ToData.C104_no_rows
  Apop.Db.ToText.C105_percent_refuted
  Apop.Db.Mixed.C106_value
  Apop.Db.ToDb.C107_text_names_refuted
  Apop.Db.ToDb.C108_default_refuted
  Apop.Mod.C109_kept
  Apop.Mod.Cdf.C111_nan_refuted
  Apop.Mod.Cdf.C111_narrow_refuted
  Apop.Mod.C113_dispatch
  Apop.Mod.C113_stable
  Apop.Mod.C114_print
  Apop.Mod.C114_update
  Apop.Out.Pg.C118_pipe
  Apop.Out.Pg.C118_pages_reversed
  Apop.Out.Pg.C118_pages_overwritten
  Apop.Out.Pg.C118_unbuffered
  Apop.Out.Pg.C118_append_mode
  Apop.Density.C139_both_parts_refuted
  Apop.Update.C170_route
  Apop.Rake.C175_contrast
  Apop.Rake.C175_contrast_words
  Apop.Db.Session.C177_reopen
  Apop.Db.Session.C177_close
  Apop.Db.Import.C178_bad_regex_refuted
  Apop.Db.Import.C178_query
  Apop.Db.Import.C178_wide_dropped
  Apop.Db.Import.C178_stdin_name
  Apop.Settings.Owner.C183_dconstrain_copy_refuted
  Apop.Settings.Owner.C183_lost_refuted
  Apop.Settings.Owner.C183_user_freed_refuted
  Apop.Settings.Owner.C183_kernel_copy_refuted
  Apop.DummyOpts.C189_in_place_names_refuted
  Apop.DummyOpts.C189_in_place_remove_refuted
  Apop.DummyOpts.C189_refused
  Apop.DummyOpts.C189_vector_refuted
  Apop.DummyOpts.C189_no_matrix_refuted
  Apop.Show.C190_title
  Apop.OlsNames.C191_empty_first_name_refuted
  Apop.DrawRace.C202_after_first
  Apop.VtRace.C205_one_kind
  Apop.Fix.C207_fixed_twice_refuted
  Apop.Db.ToDbWide.C209_missing_refuted
  Apop.Db.ToDbWide.C209_result_refuted
  Apop.Predict.C212_method

[none] (19 theorems)
  Apop.Names.C01_add_names_unended_refuted
  Apop.Names.C01_null_is_noop
  Apop.Names.C02_find_null
  Apop.Names.C03_stack_noop
  Apop.Names.C03_stack_defaults
  Apop.Sort.C19_tied_ranks_refuted
  Apop.Conv.C22_expand_vector_refuted
  Apop.Asst.C29_race_refuted
  Apop.Cross.C82_one_refuted
  Apop.Uniq.C83_no_rows_refuted
  Apop.Factors.C84_new_vector_refuted
  Apop.Mod.C109_noop_refuted
  Apop.Mod.C109_msize_refuted
  Apop.Mod.C113_endless_refuted
  Apop.Mod.C114_update_collision_refuted
  Apop.Out.Pg.C118_settings
  Apop.Out.Pg.C118_default_append_refuted
  Apop.Out.Pg.C118_pipe_and_name
  Apop.Db.Session.C177_open_late

