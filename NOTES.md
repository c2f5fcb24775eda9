# findings (apop_name.m4.c, apop_data.m4.c, apop.m4.h)
- apop_name_copy L190: Asprintf title of NULL title => printf("%s",NULL) (UB / "(null)"); same in memcpy L234
- name_find: hash pass first (case-sens djb2 hash & strcasecmp), then strcasecmp pass; 'c' falls to vector -1; else -2
- memcpy L236-244 overwrites names without updating hashes; L246 textsize assigned BEFORE check L249 => check dead, OOB text write
- transpose in place L1133 swaps row/col names but not hashes => stale, maybe OOB hash read in find
- transpose copy L1190 text used as fmt string; L1192 name_stack('t','r') adds ROW names to text list (doc: reverse)
- rm_columns: colhash not updated; drop array indexed both by colct and size2
- rm_rows L1426: ragged sizes => stale; names fewer than rows => stale name. rowhash not updated (memcpy doesn't)
- rm_page L1364 deref title NULL UB; L1373 free(tmp) shallow (leak)
- matrix_realloc L1212: newheight==0 & newwidth>size2 => size_t loop underflow (UB)
- data_set: handler installed is apop_gsl_error, not _for_set => OOB returns 0 not -1 (L904,913). early return leaves handler set
- free_base L151: cycles longer than self-loop not detected => infinite
- data_copy: error propagation from ->more: partial copy (L296)
- stack L352: 'r','c'; m2->names NULL deref at 385 ; L428 m1->names; in place m1==out => names min counts after stack? (min computed from m1->names)
- split L459: rows: vector-only splitpoint>size => gsl_vector_subvector OOB (L485), col: else branch; text split only if r_or_c=='r' (not 'R'); title not copied; text names L603-607; if textsize[0]<=splitpoint out0 text alloc has splitpoint rows
- apop_varad_var: 0/NULL means default
- apop_return_data_error(E): always 'E' (char literal not substituted)
- Apop_rs len>1: rowct=MIN(1,..) only (L873)
- Apop_settings_set: missing group -> sets 's' then NULL deref (L1116)
- parameter_model_hash/predict_hash precedence (L536,540): hash = estimate or 27
- Apop_maybe_abort: only 'v' or 'w'
# apop_sort.m4.c
- sub-blocks always sorted 'a' (L212,223) => 'd' applies to first col only
- text second pass: block boundary strcasecmp, bottom updated by strcmp (L225) => mixed-case ties not sub-sorted
- recursion on Apop_rs view, rowct=MIN(1..) => in tie blocks row names don't move with rows; row-name key not used within blocks
- rearrange L83: cycle leader; prove out[i]=in[perm[i]]
- all-NaN sort order / empty data => col -100 => gsl_sort NULL crash
- NaN != NaN : blocks of size 1
# apop_settings.c : finite map keyed by djb2 hash ONLY (collisions "Az"/"BY"); empty name = sentinel; remove = filter; group_alloc = replace+append
# apop_vtables.c: first registration wins (L98); drop L59 memmove reads 1 past end (heap overread when cap==ct); hash-0 sentinel; v pointer stale after realloc (race); get: not found NULL
# apop_missing_data L33 listwise_delete: marks by vector/matrix/weights/text; all-marked => NULL & input unchanged (doc for inplace says NULL parts); ragged: drop[] OOB
# apop_asst.m4.c
- text_paste L98: no prune: before+intercalate; prune INVERTED vs doc (L111 skips when prune returns 0); separators after pruned cols; fully pruned row between => missing 'between'
- generalized_harmonic L138: memo; lengths never updated but correct for all histories; N<=0 NaN
- regex L247: zero-length match => string not advanced => infinite loop; count_parens L199
- rng_get_thread_base L356: `#ifdef OpenMP` typo => -1 means RNG 0 always; seeds seed0+k+1
- model_draws L405: error codes: 'E' rather than 'm'; 's' overwritten by 'm'
- beta_from_mean_var L323
# apop_conversions.m4.c
- array_to_vector; vector_to_matrix L62; find_cat_index L76 (infinite loop if start_from>=size and not found); crosstab L111: i starts at #cols. cells default 0
- crosstab_to_db L198: sparerow buffer floor(log10 m)+1 bytes, sprintf "r%i" needs digits+2 => ALWAYS overflow when names missing
- rank_compress L261 (min_bins ignored if both vec & mat present); rank_expand L286 (matrix NULL deref; vector counted in total but not expanded)
- parse_a_fixed_line L434; get_next L474 (0xFF = EOF; after EOF sentinel consumed, further reads = stale/uninit bytes); parse_next_char L485 (c==0 is 'W'); parse_a_line L503 state machine:
  comment hitting EOF sets type 'n' => eof lost => reads past sentinel (bug); roundtrip quoting theorem; memory safe mlen; fields trimmed
- get_field_names L566: header-only file => loops past EOF; fixed: infinite loop. L569 parse result eof dropped: header + 1 line w/o newline => reads past
- text_to_data L600: short rows leave uninit cells; long rows => error 't'; blank/unparseable => NaN
- unpack L691: recursion drops use_info_pages (L724) => roundtrip broken for 'y' w/ info page at depth>=2. sizecount L728: info first page skipped by sizecount but written by pack
- pack L762; fill_base L859 (row i: vector elt then matrix row); vector_fill L891; text_fill_base L923: strings used as printf FORMAT; reads past NULL terminator if too few strings
- tab_create; prep_string_for_sqlite L990: ' => wrap in "..." ; both quotes => broken; .5 -> 0.5; inf
- text_to_db L1176: while(L.ct && !L.eof) => last line w/o newline dropped; `rows` returned counts parse calls +1 (not rows). cut_at_dot L1075
# apop_linear_algebra.m4.c
- vector_stack L186, matrix_stack L242: dims mismatch -> NULL; data_stack then sets out->matrix=NULL with no error flag (doc says 'd'); in place loses m1's matrix
- vector_bounded L308 (<=max, doc says <)

# Later reading notes (not all are theorems; those that are, are in FINDINGS.md)
- Dummies (C189): append='i' NULL deref after last column, frees column names but keeps count, ignores remove; remove overruns rm_list when columns > rows+1. apop_data_to_factors with intype 'd', incol −1 and no matrix but outcol ≥ 0 derefs NULL matrix.
- apop_data_show (C190): weights counted twice → blank column; extra column names land on text columns; no delimiter after column 0.
- OLS (C191, C192): truthiness of 'n' in parts_wanted; want_expected_value='n' with covariance NULL deref; '"observed"' lookup fails for named data.
- Fisher (C184–C188): probability multiplied by e^tol; one column → error with uninitialised values; iwork padding overlap; total ≥ ~98866 overflows workspace; key overflow; f3xact hash key can overflow int unchecked; f3xact's later f10act precondition uses iro[nro]; possible fact[-1] reads; f4xact subtracts amx twice so SP is almost always the trivial bound; f3xact's static nst/nitc are not reset after error returns; fmin2/fmax2 are float.
- Settings ownership (C183): mixture free decrements the pointer → leak and double free; arms copy shares state->p; loess copy shallow and frees user's weights; dconstrain refct; kernel density copies dangle; apop_lm frees a user's input_distribution, copied instruments leak.
- Concurrency (C180–C182): PMF without settings group: two threads free each other's block; pmf_cmf has no critical section; kernel-of-kernel and metropolis-in-metropolis self-deadlock; apop_rng_get_thread reads rngs after the section; `#ifdef OpenMP` typo.
- Import (C178): 'd'/'o' destroy old rows before the file is opened; row names without header always −1; bad regex matches every name; >999 columns: wrong-length lines dropped; column names with apostrophes break the create query.
- Session (C177): crosstab_to_db inside a user transaction commits it; failed apop_db_open → later queries go to memory; apop_db_close('v') with no db tests uninitialised err.
- Rake setup (C175): nudge with a separate init_table excepts the margin table's rows; all structural zeros → NULL deref; unknown variable dropped; "a b|c" parsed as b, c; %g truncates the nudge.
- Model constraints (C174): shared scratch vector corrupts later constraints; Dirichlet with 3+ parameters can be left out of bounds; t accepts σ=0.
- Linear algebra (C162–C166): determinant of non-square writes through NULL; PSD test strict, no symmetry check; to_positive_semidefinite aborts on zero trace, never ends for [[0,1],[1,0]]; pca with too many dims UB.
- MCMC adapt (C167): acceptance adapts before counting itself; the main loop adapts the NEXT block's proposal; an accepted step adapts twice.
