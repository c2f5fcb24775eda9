{"id": "C01", "title": "Adding names appends, in order, and touches nothing else", "statement": "After any sequence of apop_name_add calls on a name structure, the row, column and text lists hold exactly the non-NULL strings added with the corresponding type ('r', 't', and every type other than h/v/r/t counts as a column), in call order; the vector name and title are the last ones given; each list call returns the new length of its list, h/v return 1 and a NULL string returns -1 and changes nothing. apop_data_add_names does so for all strings it is given, in order. (Refuted: with a NULL among them, those after it are not added; the array given to apop_data_add_names_base must end with NULL.)", "quantifier": "every initial name structure and every finite sequence of (string, type) adds", "why_tests_cant": "unbounded sequences and arbitrary strings/types", "anchors": ["apop_name.m4.c:apop_name_add", "apop_name.m4.c:apop_name_alloc", "apop_data.m4.c:apop_data_add_names_base"]}
{"id": "C02", "title": "Name lookup is sound and complete, case-insensitively", "statement": "apop_name_find(n, s, type) returns an index i only if the i-th name of that list equals s up to case; it returns -2 only if no name in that list (nor, for 'c'/'C', the vector name) equals s up to case; -1 only if the vector name matches and no column does. When the names were built by apop_name_add and an exact-case match exists, an entry whose stored hash equals the hash of s is preferred to earlier case-variants.", "quantifier": "every name structure, every search string, every type character, including 64-bit hash collisions", "why_tests_cant": "depends on all string pairs and on hash collisions", "anchors": ["apop_name.m4.c:apop_name_find", "apop_name.m4.c:apop_name_hash"]}
{"id": "C03", "title": "Stacking and copying names", "statement": "apop_name_stack(n1, nadd, t1, tadd) appends the tadd list of nadd, in order, to the t1 list of n1 and leaves every other list alone, also when n1 and nadd are the same object (tadd='v' overwrites the vector name instead; for one and the same object that is undefined behaviour); a NULL nadd or an unknown tadd changes nothing; apop_name_copy yields equal lists, vector name and title (a missing title becomes the text \"(null)\"), and every lookup on the copy agrees with the original.", "quantifier": "all name structures and all type pairs", "why_tests_cant": "all list lengths, aliasing included", "anchors": ["apop_name.m4.c:apop_name_stack", "apop_name.m4.c:apop_name_copy"]}
{"id": "C04", "title": "apop_data_copy duplicates a data set", "statement": "For every acyclic chain of well formed pages without error flags, apop_data_copy returns as many pages, in the same order, each with the same vector, matrix, weights, text grid, row, column and text names, and the same title if there was one; name lookup works on the copy. (The vector name is never copied, and a missing title becomes \"(null)\".)", "quantifier": "every data set, of any dimensions, any number of pages", "why_tests_cant": "unbounded sizes and page chains", "anchors": ["apop_data.m4.c:apop_data_copy", "apop_data.m4.c:apop_data_memcpy"]}
{"id": "C05", "title": "Free and copy handle circular page chains", "statement": "apop_data_free and apop_data_copy terminate on every page chain that ends: free frees exactly its pages, copy copies them; if the last page's more pointer is the page itself, both return, free frees nothing and marks every page leading to it with error 'c', and every page of the copy is marked 'c'. (Longer cycles are not noticed: neither call ever returns.)", "quantifier": "every finite heap of pages with arbitrary more pointers", "why_tests_cant": "all pointer graphs, including cycles longer than one", "anchors": ["apop_data.m4.c:apop_data_free_base", "apop_data.m4.c:apop_data_copy"]}
{"id": "C06", "title": "Allocation shape rule", "statement": "apop_data_alloc/apop_data_calloc with (v,r,c), (r,c), (v) or () produce exactly a v-vector plus r x c matrix, an r x c matrix, a v-vector, or nothing (zero-sized parts are NULL); calloc's cells are all zero.", "quantifier": "all argument triples, zero and negative included", "why_tests_cant": "all sizes", "anchors": ["apop_data.m4.c:apop_data_alloc", "apop_data.m4.c:apop_data_calloc"]}
{"id": "C07", "title": "apop_matrix_realloc keeps every cell that fits", "statement": "After apop_matrix_realloc(m, h, w) of an ordinary matrix with at least one row, with h>0, cell (i,j) equals the old cell (i,j) for every i < min(old height, h), j < min(old width, w), the new dimensions are h x w, and no access leaves the allocated block; views are refused and left unchanged; NULL gives a new matrix. (h=0 with a larger width writes before the block.)", "quantifier": "every matrix and every new height and width", "why_tests_cant": "overlapping in-place moves depend on every shape combination", "anchors": ["apop_data.m4.c:apop_matrix_realloc"]}
{"id": "C08", "title": "apop_vector_realloc keeps the prefix", "statement": "After apop_vector_realloc(v, n), the size is n and element i is unchanged for all i < min(old size, n); views are refused.", "quantifier": "every vector and every n", "why_tests_cant": "all sizes", "anchors": ["apop_data.m4.c:apop_vector_realloc"]}
{"id": "C09", "title": "apop_text_alloc reshapes the text grid", "statement": "apop_text_alloc(d, r, c), on any usable grid, unless it adds rows and removes columns in one call: the grid becomes exactly r x c (or is left alone when exactly one of r, c is zero); cells in both the old and new grid keep their strings, all other cells are blank, no uninitialised or freed cell pointer is read, and any sequence of such calls keeps the grid usable. (Adding rows while removing columns writes past the new rows, always.)", "quantifier": "every existing grid and every r, c, any sequence of calls", "why_tests_cant": "sequences of grow/shrink in both dimensions", "anchors": ["apop_data.m4.c:apop_text_alloc"]}
{"id": "C10", "title": "apop_text_set writes one cell", "statement": "apop_text_set(d, i, j, s), for i, j below 2^31-1, stores s (the NaN string if NULL) in cell (i,j) and changes no other cell, returning 0; if (i,j) is outside the grid it changes nothing and returns -1. (Row (size_t)-1 passes the check and accesses memory outside the grid.)", "quantifier": "every grid, position and string", "why_tests_cant": "all grids", "anchors": ["apop_data.m4.c:apop_text_set"]}
{"id": "C11", "title": "apop_data_get reads what apop_data_set wrote", "statement": "If apop_data_set(d, row, col, val) addresses an existing element (by number or by name, on any page by title, column -1 or 0 of a vector-only set meaning the vector), the matching apop_data_get then returns val, every other element is unchanged, and 0 is returned; if the name or page is not found or the part is NULL, nothing is written and apop_data_set returns -1, apop_data_get NaN. (Outside of an existing vector or matrix nothing is written either, but GSL's error handler is called and 0 returned.)", "quantifier": "every data set, position, name and value", "why_tests_cant": "all positions, names, and shapes", "anchors": ["apop_data.m4.c:apop_data_set", "apop_data.m4.c:apop_data_get", "apop_data.m4.c:apop_data_ptr"]}
{"id": "C12", "title": "Stacking data sets", "statement": "For well formed sets with names, no error flag and matching widths (heights): apop_data_stack(m1, m2, 'r') has the rows of m1 followed by the rows of m2 in vector, weights, matrix and text, row names lined up with their rows; with 'c' each row is m1's, then m2's vector entry if both have one, then m2's row; with NULL on one side it is a copy of the other (or m1 itself in place); m1 is unchanged unless inplace. The documentation's function that merges four matrices gives, where heights and widths agree, each element from the matrix whose quarter it is in. (Refuted: where the widths do not agree it gives the upper two, without an error.)", "quantifier": "all pairs of data sets", "why_tests_cant": "all shapes", "anchors": ["apop_data.m4.c:apop_data_stack", "apop_linear_algebra.m4.c:apop_matrix_stack", "apop_linear_algebra.m4.c:apop_vector_stack"]}
{"id": "C13", "title": "Splitting is the inverse of stacking", "statement": "For a well formed set with names and 0 < k inside every part: apop_data_split(d, k, 'r') puts the first k rows of every part in the first output and the rest in the second, with their row names, and stacking the two gives back vector, matrix, weights, text and row names; 'c' with 0 < k < columns likewise for the columns (vector to the first output, weights and row names to both; text to neither), and stacking by columns gives back vector, matrix and weights; a row split at or before 0 or at or after the last matrix row gives a copy and NULL.", "quantifier": "every data set and every split point, including negative and beyond the end", "why_tests_cant": "all split points", "anchors": ["apop_data.m4.c:apop_data_split"]}
{"id": "C14", "title": "apop_data_rm_rows keeps exactly the undropped rows", "statement": "For sets whose parts all have the same number of rows and whose row names are complete or absent: apop_data_rm_rows(d, drop, fn) leaves, in the original order, exactly the rows for which neither drop[i] nor fn is nonzero, each with its own vector, matrix, weight, text and row-name entries; if all rows are dropped every part becomes NULL and column names remain.", "quantifier": "every data set, drop array and drop function", "why_tests_cant": "all drop patterns", "anchors": ["apop_data.m4.c:apop_data_rm_rows"]}
{"id": "C15", "title": "Removing and pruning columns", "statement": "apop_data_rm_columns, with a drop array covering matrix columns and names, leaves exactly the columns with drop==0, in order, with their names; apop_data_prune_columns, when every matrix column is named, keeps, for each requested name, the first not-yet-claimed column matching case-insensitively, and nothing else.", "quantifier": "every matrix, drop array, and list of names", "why_tests_cant": "all patterns", "anchors": ["apop_data.m4.c:apop_data_rm_columns", "apop_data.m4.c:apop_data_prune_columns_base"]}
{"id": "C16", "title": "Transposition", "statement": "In place, on every set with a matrix or text (and row names if it has text names): apop_data_transpose moves matrix element (i,j) to (j,i), text cell (i,j) to (j,i) if asked to, exchanges row and column names and changes nothing else; doing it twice restores the original (given both row and column names if there are text names). To a copy, for a nonempty matrix or text only, no % in the text: the same contents, and every lookup of a name on the result is defined.", "quantifier": "every data set, in place or copying", "why_tests_cant": "all shapes, in-place text permutation", "anchors": ["apop_data.m4.c:apop_data_transpose"]}
{"id": "C17", "title": "Pages behave as a titled list", "statement": "apop_data_add_page appends a page at the end of the chain with the given title; apop_data_get_page returns the first page whose title matches and NULL iff none does; apop_data_rm_page, if every page after the head has a title, removes the first matching page other than the head and keeps the others in order, and changes nothing if there is none.", "quantifier": "every chain of pages and every title", "why_tests_cant": "all chain lengths and titles", "anchors": ["apop_data.m4.c:apop_data_get_page", "apop_data.m4.c:apop_data_add_page", "apop_data.m4.c:apop_data_rm_page"]}
{"id": "C18", "title": "Row rearrangement applies the permutation exactly", "statement": "When sorting by one column, the in-place cycle-following rearrangement ends with row i equal to the original row perm[i] for every i, for every permutation, and terminates.", "quantifier": "every permutation of any length and any rows", "why_tests_cant": "all permutations / cycle structures", "anchors": ["apop_sort.m4.c:rearrange"]}
{"id": "C19", "title": "apop_data_sort sorts whole rows lexicographically", "statement": "apop_data_sort by one column (any, also row names, either direction) returns a permutation of the input's rows ordered by that column, every row keeping its vector, matrix, weight, text and name entries together. By any list of columns (default: vector, matrix columns, text columns, weights), for sets without row names and text columns in which strings equal up to case are equal: a permutation of whole rows, in lexicographic order, whatever sorting algorithm the library uses; other pages are untouched. With a sort_order set without ties the columns used are those with a rank, in order of rank.", "quantifier": "every data set, sort order, and every behaviour of the underlying single-column sort allowed by its specification", "why_tests_cant": "all data, ties at any depth", "anchors": ["apop_sort.m4.c:apop_data_sort"]}
{"id": "C20", "title": "Descending sort", "statement": "With asc='d', apop_data_sort orders by every chosen column in descending order (the option 'is applied to all columns').", "quantifier": "every data set and sort order", "why_tests_cant": "all data", "anchors": ["apop_sort.m4.c:apop_data_sort"]}
{"id": "C21", "title": "Pack and unpack are inverse", "statement": "If the first page is not an info page (or info pages are asked for with 'y'), pages have name structures and the last packed page has numbers: apop_data_pack gives vector, then matrix row by row, then weights, page by page, of size the total element count; unpacking that into a set with the same shapes makes every vector, matrix and weight element of every page that is not an info page equal to the packed one and changes nothing else; with info pages asked for, the same for all pages when info pages are among the first two.", "quantifier": "every data set, any number of pages, any placement of info pages, both use_info_pages settings", "why_tests_cant": "all page layouts", "anchors": ["apop_conversions.m4.c:apop_data_pack", "apop_conversions.m4.c:apop_data_unpack", "apop_conversions.m4.c:sizecount"]}
{"id": "C22", "title": "Rank compress/expand", "statement": "apop_data_rank_expand(apop_data_rank_compress(d)) holds the same multiset of nonnegative integers as d, in ascending order, and bin k of the compressed form is the number of k's in d.", "quantifier": "every data set of nonnegative integers", "why_tests_cant": "all multisets", "anchors": ["apop_conversions.m4.c:apop_data_rank_compress", "apop_conversions.m4.c:apop_data_rank_expand"]}
{"id": "C23", "title": "Listwise deletion", "statement": "For sets whose parts all have the same number of rows: apop_data_listwise_delete returns exactly the rows with no NaN in vector, matrix, weights and no nan_string in text, in order; NULL if there are none (input untouched); it is idempotent, and leaves the input alone unless inplace.", "quantifier": "every rectangular data set and NaN pattern", "why_tests_cant": "all NaN patterns", "anchors": ["apop_missing_data.m4.c:apop_data_listwise_delete"]}
{"id": "C24", "title": "Settings groups form a map from group name to group", "statement": "Over group names that are not empty and hash differently: after any sequence of Apop_settings_add_group, rm_group and copy_group on any number of models, getting a group by name returns the most recently added (or copied) and not removed group of that name, NULL if there is none; operations on one name or model do not affect another; groups freed are exactly those replaced or removed.", "quantifier": "every history of operations and every set of names", "why_tests_cant": "histories and hash collisions", "anchors": ["apop_settings.c:apop_settings_group_alloc", "apop_settings.c:apop_settings_remove_group", "apop_settings.c:apop_settings_get_grp", "apop_settings.c:apop_settings_copy_group"]}
{"id": "C25", "title": "The vtable registry is a per-table map where the first registration wins", "statement": "After any sequence of vtable add/drop/get calls, get(table,hash) returns the function first added under that key since it was last dropped, or NULL; drop returns 0 iff the key was present; other keys and tables are unaffected; no call reads outside the registry's memory.", "quantifier": "every history of calls, every table name and hash", "why_tests_cant": "histories", "anchors": ["apop_vtables.c:apop_vtable_add", "apop_vtables.c:apop_vtable_drop", "apop_vtables.c:apop_vtable_get"]}
{"id": "C26", "title": "apop_text_paste joins the grid", "statement": "apop_text_paste returns before + rows joined by between, each row being its cells joined by between_cols + after. With a prune function that leaves something of every row, the elements for which it returns nonzero are the ones used (the documentation says the opposite), each followed by the separator unless in the last column.", "quantifier": "every text grid, separators and prune function", "why_tests_cant": "all grids/prunings", "anchors": ["apop_asst.m4.c:apop_text_paste"]}
{"id": "C27", "title": "Memoised generalized harmonic numbers are right for every call history", "statement": "For every history of calls from one thread: apop_generalized_harmonic(N,s) returns sum_{n=1..N} n^-s for N>0 whatever calls preceded it, NaN for N<=0, and never reads an unwritten or out-of-range cache cell.", "quantifier": "every history of (N,s) calls", "why_tests_cant": "cache histories", "anchors": ["apop_asst.m4.c:apop_generalized_harmonic"]}
{"id": "C28", "title": "apop_regex terminates and returns one row per match", "statement": "For every regular expression with parentheses and string such that no match is empty, apop_regex with substrings terminates and returns successive non-overlapping matches left to right, one text row per match, one column per unescaped parenthesis pair. (An empty match at the start of what is left loops for ever.)", "quantifier": "every regex matcher behaviour and every string", "why_tests_cant": "zero-length matches, all strings", "anchors": ["apop_asst.m4.c:apop_regex", "apop_asst.m4.c:count_parens"]}
{"id": "C29", "title": "Per-thread random number generators", "statement": "For any order of calls with thread numbers >= 0, one at a time, with seeds set in between: apop_rng_get_thread(k) always returns the same generator for the same k and different generators for different k; if the seed is not set in between, generator k is seeded with initial seed + k + 1 whoever asks and in whatever order.", "quantifier": "every call history, every thread number", "why_tests_cant": "schedules", "anchors": ["apop_asst.m4.c:apop_rng_get_thread_base"]}
{"id": "C30", "title": "Delimited text round trip", "statement": "Writing any list of fields (no NUL, no 0xFF byte; not a single empty field) with every field quoted and with quotes and backslashes escaped, separated by a delimiter that is not white space and ended by newline, and reading that line back, at any place of any file and with any buffer size, yields exactly the same fields; with white space as the delimiter, fields that are not blank are read back.", "quantifier": "all field lists and contents", "why_tests_cant": "all strings", "anchors": ["apop_conversions.m4.c:parse_a_line", "apop_conversions.m4.c:parse_next_char"]}
{"id": "C31", "title": "Line parsing never writes outside its field buffers", "statement": "While parsing any input line, every write to a field's character buffer, including the terminating NUL, is within its allocation.", "quantifier": "every byte stream and delimiter set", "why_tests_cant": "all inputs", "anchors": ["apop_conversions.m4.c:parse_a_line", "apop_conversions.m4.c:parse_a_fixed_line"]}
{"id": "C32", "title": "When reading stops at the end of the file, and when not", "statement": "If a file has a header line and a data line that ends in a newline, and its last line, if unterminated, holds no comment, what apop_text_to_db inserts and returns depends only on the bytes in the file. In a file with no data line, with a header only, with a single unterminated data line, or with a comment on an unterminated last line, bytes that are not in the file are read. Byte 0xFF ends the file.", "quantifier": "every file content", "why_tests_cant": "all contents and buffer boundaries", "anchors": ["apop_conversions.m4.c:get_next", "apop_conversions.m4.c:parse_a_line", "apop_conversions.m4.c:get_field_names", "apop_conversions.m4.c:apop_text_to_data"]}
{"id": "C33", "title": "apop_text_to_db stores every terminated data line", "statement": "For a file with a newline-terminated data line (no byte 0xFF): apop_text_to_db inserts one record per nonblank data line that ends in a newline, in order, with the fields of that line; the names are the fields of the first nonblank line if there is a header. An unterminated last line is not inserted; the return value is one more than the number of lines from the first data line on, and so always more than the number of records.", "quantifier": "every file content", "why_tests_cant": "all contents", "anchors": ["apop_conversions.m4.c:apop_text_to_db"]}
{"id": "C34", "title": "Fixed-width lines split at the field ends", "statement": "Parsing a fixed-width line no longer than the last field end, with ascending field ends e1<e2<..., yields the substrings [0,e1), [e1,e2), ... cut at the end of line, nothing lost or duplicated, whatever earlier lines held. (A longer line reads past the array of ends, always.)", "quantifier": "every line and list of field ends", "why_tests_cant": "all lines", "anchors": ["apop_conversions.m4.c:parse_a_fixed_line"]}
{"id": "C35", "title": "Strings are quoted so that SQL reads them back", "statement": "A non-numeric, non-missing string without an apostrophe prepared for insertion (without prepared statements) is a single SQL string literal that denotes the original string; with prepared statements every such string is passed on unchanged; a string is NULL exactly if it is empty or the NaN string up to case. (A string with an apostrophe never becomes a string literal.)", "quantifier": "every string", "why_tests_cant": "all strings including quotes", "anchors": ["apop_conversions.m4.c:prep_string_for_sqlite"]}
{"id": "C36", "title": "apop_data_fill fills row by row", "statement": "apop_data_fill with at least as many values as cells writes its k-th value to the k-th cell reading each row as vector entry then matrix row, reads exactly as many values as there are cells and changes nothing else; apop_vector_fill likewise; apop_text_fill likewise for strings without percent signs. (With fewer numbers it always reads past the list.)", "quantifier": "every shape and list", "why_tests_cant": "all shapes", "anchors": ["apop_conversions.m4.c:apop_data_fill_base", "apop_conversions.m4.c:apop_vector_fill_base", "apop_conversions.m4.c:apop_text_fill_base"]}
{"id": "C37", "title": "Crosstab cells", "statement": "apop_db_to_crosstab puts in cell (r,c) the data value of the (last) record with that row and column key, 0 if there is none, for every order of records, and terminates.", "quantifier": "every record list", "why_tests_cant": "all record orders", "anchors": ["apop_conversions.m4.c:apop_db_to_crosstab", "apop_conversions.m4.c:find_cat_index"]}
{"id": "C38", "title": "Generated crosstab names fit their buffers", "statement": "When apop_crosstab_to_db makes up row or column names, they fit in the buffers reserved for them.", "quantifier": "every table size", "why_tests_cant": "all sizes", "anchors": ["apop_conversions.m4.c:apop_crosstab_to_db"]}
{"id": "C39", "title": "Vector to matrix conversion", "statement": "apop_vector_to_matrix gives an Nx1 (default) or 1xN matrix with the same elements in order; apop_array_to_vector copies the array.", "quantifier": "all vectors", "why_tests_cant": "all sizes", "anchors": ["apop_conversions.m4.c:apop_vector_to_matrix", "apop_conversions.m4.c:apop_array_to_vector"]}
{"id": "C40", "title": "apop_data_memcpy checks before it writes", "statement": "apop_data_memcpy, when the target's text grid is at least as large as the source's, either copies all parts (same dimensions) or, if a part is missing or of another size, sets error 'p' (missing) or 'd' (size), by the first offending part, and copies no text; it never writes outside the destination. (A source grid with more rows overflows the target: the size check compares the source with itself.) Names are those of the source, followed by what the target had beyond them. All pages that both have are copied; a page that does not fit stops it, with the pages before copied, the error set there, and the pages after it untouched.", "quantifier": "all pairs of data sets", "why_tests_cant": "all shape mismatches", "anchors": ["apop_data.m4.c:apop_data_memcpy"]}
{"id": "C41", "title": "Row and column views", "statement": "Views in range show exactly the requested rows/columns of the parent (Apop_rv, Apop_cv, Apop_subm, Apop_subvector, Apop_r, Apop_rs, Apop_c, Apop_cs), columns with their names, single rows with their name; writing through a view changes exactly the corresponding cells of the parent; out-of-range vector, matrix and column requests give NULL (row sets: NULL parts). A view of several rows has the name of the first only. A name shown by a view can be looked up in the view, in any case, and is found at its place there; a name of the parent that is not in the view is not found.", "quantifier": "every data set and range", "why_tests_cant": "all ranges", "anchors": ["apop.m4.h:Apop_rs", "apop.m4.h:Apop_cs", "apop.m4.h:Apop_rv", "apop.m4.h:Apop_cv", "apop.m4.h:Apop_subm", "apop.m4.h:Apop_subvector"]}
{"id": "C42", "title": "Errors carry the documented code", "statement": "When a function documented to return a data set with error code X fails, the returned set's error field is X.", "quantifier": "every failing call through the error-return helper", "why_tests_cant": "all failing inputs", "anchors": ["apop.m4.h:apop_return_data_error", "apop_asst.m4.c:apop_model_draws", "apop_conversions.m4.c:apop_text_to_data"]}
{"id": "C43", "title": "Named-element lists work as a dictionary", "statement": "After any sequence of apop_data_add_named_elmt on a blank set, apop_data_get by row name returns the value of the first element whose name matches; names and values stay aligned.", "quantifier": "every sequence of (name, value)", "why_tests_cant": "histories", "anchors": ["apop_data.m4.c:apop_data_add_named_elmt"]}
{"id": "C44", "title": "Copying and freeing a model's settings", "statement": "For settings groups whose names have at most 100 bytes and hash differently: apop_model_copy gives a model that has exactly the settings groups of the original, each copied by its own copy function, leaves the error flag unchanged, and apop_model_free frees each group of a model exactly once.", "quantifier": "every model reachable by any history of group additions, removals and copies", "why_tests_cant": "all histories and group names", "anchors": ["apop_model.m4.c:apop_model_copy", "apop_model.m4.c:apop_model_free", "apop_settings.c:apop_settings_copy_group"]}
{"id": "C45", "title": "apop_text_to_data makes one row per data line, with every cell written", "statement": "For every file (no byte 0xFF) whose nonblank data lines all have one number of fields, as many as the header has names (plus the row name): apop_text_to_data returns a matrix with one row per nonblank data line (the last one with or without a newline), in order; every cell is written, from the string in its field; column names come from the header and row names from the first field; there is no error.", "quantifier": "every file content, delimiter list, buffer size", "why_tests_cant": "all contents; uninitialised cells look like any value", "anchors": ["apop_conversions.m4.c:apop_text_to_data", "apop_conversions.m4.c:get_field_names"]}
{"id": "C46", "title": "apop_map of a number function is element by element, whatever the threads do", "statement": "apop_map with a function from a number to a number and part 'v', 'm' or 'a', on a set whose parts are not empty and (for 'm') that has not just a vector: every schedule of the threads that comes to the end gives a set whose element at each place of the parts asked for is the function of the input's element at that place; with inplace='n' the input is unchanged, with 'y' nothing but those elements changes; with all_pages='y' this holds for every page; inplace='v' returns NULL and changes nothing.", "quantifier": "every data set, function, and interleaving of the loop iterations of any number of threads", "why_tests_cant": "a test runs a few schedules; data shapes are unbounded", "anchors": ["apop_mapply.m4.c:apop_map_base", "apop_mapply.m4.c:vectorloop", "apop_mapply.m4.c:mapply_core"]}
{"id": "C47", "title": "The index given to a mapped function is the element's position", "statement": "A function with an index argument is called with the position of the element in the vector or matrix.", "quantifier": "every data set and schedule", "why_tests_cant": "all shapes", "anchors": ["apop_mapply.m4.c:apop_map_base", "apop_mapply.m4.c:vectorloop"]}
{"id": "C48", "title": "Row and column functions each see one row, and the results are in order", "statement": "apop_map with a vector function over the rows ('r') or columns ('c') of a matrix into a new set, over the rows in place, or with a function on one-row data sets (also in place given a vector): under every schedule, element i of the output vector is the value the function gives when run alone on row (column) i, the rows afterwards are as that function alone leaves them, and nothing else changes. (Columns in place overrun the vector when there are more columns than rows.)", "quantifier": "every data set, every function (also one that changes its input), every interleaving", "why_tests_cant": "interleavings", "anchors": ["apop_mapply.m4.c:forloop", "apop_mapply.m4.c:rowloop"]}
{"id": "C49", "title": "apop_map_sum is the sum of the mapped values", "statement": "apop_map_sum returns the sum of the values of the function over the elements asked for (numbers), or over the rows of the matrix (vector function), plus, with all_pages='y', that of the following pages; zero for a NULL set.", "quantifier": "every data set, function, schedule", "why_tests_cant": "all shapes and schedules", "anchors": ["apop_mapply.m4.c:apop_map_sum_base"]}
{"id": "C50", "title": "apop_model_draws fills every row with its own draw, on any threads", "statement": "For a model with positive dsize and either no set given or one at least dsize wide: apop_model_draws makes (or fills) a matrix in which each row holds, in its first dsize columns, one draw of the generator of the thread that made the row; no draw of a generator is used for two rows; further columns are left alone; a row whose draw fails is all NaN, and the set is marked 'd' exactly if a draw failed.", "quantifier": "every model, row count, assignment of rows to threads and order", "why_tests_cant": "thread schedules", "anchors": ["apop_asst.m4.c:apop_model_draws_base", "apop_asst.m4.c:apop_rng_get_thread_base"]}
{"id": "C51", "title": "Sums and means, weighted or not", "statement": "In exact arithmetic: apop_vector_sum and apop_matrix_sum return the sum of all elements; apop_vector_mean the sum over n, or with weights the weighted sum over the sum of weights (NaN if that is zero); whole-number weights mean the same as repeating elements; multiplying all weights by a nonzero constant changes nothing; apop_matrix_mean is the mean of all cells.", "quantifier": "every vector, weight vector and matrix, of any size", "why_tests_cant": "algebraic identities over all inputs and lengths", "anchors": ["apop_stats.m4.c:apop_vector_sum", "apop_stats.m4.c:apop_vector_mean", "apop_stats.m4.c:apop_matrix_sum", "apop_stats.m4.c:apop_matrix_mean"]}
{"id": "C52", "title": "Sample variance and covariance, with replicate weights", "statement": "In exact arithmetic, for n >= 2: apop_vector_var is \u03a3(x-mean)\u00b2/(n-1) and apop_vector_cov \u03a3(x-mx)(y-my)/(n-1); with whole-number weights that total at least two, both are the unweighted statistic of the data with each observation repeated as often as its weight says; cov(a,b)=cov(b,a) and cov(a,a)=var(a) for all weights; one observation gives NaN.", "quantifier": "every vector and every vector of whole weights", "why_tests_cant": "all lengths and weights", "anchors": ["apop_stats.m4.c:apop_vector_var", "apop_stats.m4.c:apop_vector_cov"]}
{"id": "C53", "title": "Population skew, kurtosis and matrix variance are the central moments", "statement": "In exact arithmetic: apop_vector_skew_pop and apop_vector_kurtosis_pop return \u03a3(x-mean)^k/n (k = 3, 4), also through the running average used; with whole-number weights totalling at least two, the moment of the repeated data; apop_matrix_mean_and_var gives mean and \u03a3(x-mean)\u00b2/N over all cells.", "quantifier": "every nonempty vector and matrix, every vector of whole weights", "why_tests_cant": "all lengths", "anchors": ["apop_stats.m4.c:apop_vector_skew_pop", "apop_stats.m4.c:apop_vector_kurtosis_pop", "apop_stats.m4.c:apop_matrix_mean_and_var"]}
{"id": "C54", "title": "Sample variance and skew are unbiased", "statement": "For every finite distribution, the expectation over independent samples of size n of apop_vector_var (n >= 2) is the variance of the distribution, and of apop_vector_skew (n >= 3) its third central moment.", "quantifier": "every finite distribution, every sample size", "why_tests_cant": "statement about expectations over all distributions", "anchors": ["apop_stats.m4.c:apop_vector_var", "apop_stats.m4.c:apop_vector_skew"]}
{"id": "C55", "title": "Percentiles", "statement": "For a nonempty vector apop_vector_percentiles returns 101 values, non-decreasing, the first the minimum and the last the maximum, whatever the rounding; with rounding 'u', each is an element and at least i percent of the data are at or below it; with 'd', each is an element and at least 100-i percent are at or above it.", "quantifier": "every nonempty vector, rounding and percentile", "why_tests_cant": "all vectors and lengths; index rounding", "anchors": ["apop_stats.m4.c:apop_vector_percentiles"]}
{"id": "C56", "title": "Weights that sum to one are treated as standard weightings", "statement": "As documented for apop_vector_var, _cov, _skew_pop and _kurtosis_pop: if the weights sum to one, w->size is used as the number of elements and the usual statistic is returned; so equal weights 1/n give what no weights give.", "quantifier": "every vector and weight vector summing to one", "why_tests_cant": "all inputs", "anchors": ["apop_stats.m4.c:apop_vector_var", "apop_stats.m4.c:wskewkurt"]}
{"id": "C57", "title": "Distances are metrics with the documented values", "statement": "apop_vector_distance returns the documented formula for 'e','m','d','s','l'; vectors of different sizes give NaN; an omitted second vector means zero, whatever calls of whatever sizes came before on the thread; each is a metric (nonnegative, zero exactly on equal vectors, symmetric, triangle inequality), the L_p one for p >= 1.", "quantifier": "every pair and triple of vectors, every p, every history of calls", "why_tests_cant": "triangle inequality over all vectors; call histories with a static vector", "anchors": ["apop_stats.m4.c:apop_vector_distance"]}
{"id": "C58", "title": "apop_vector_kurtosis is unbiased", "statement": "As documented: the expectation of apop_vector_kurtosis over samples of size n is the fourth central moment.", "quantifier": "every distribution and sample size", "why_tests_cant": "statement about expectations", "anchors": ["apop_stats.m4.c:apop_vector_kurtosis"]}
{"id": "C59", "title": "apop_vector_normalize delivers the documented normalisation", "statement": "Type 'p': if the sum is not zero, every element becomes its share of the sum and the result sums to one. 'r': if not all elements are equal, each becomes (x-min)/(max-min), the result lies in [0,1] and both ends are reached. 'm': each has the mean subtracted and the result has mean zero. 's': for two or more elements not all equal, mean zero and variance one. With an out vector the input is left unchanged; without, it is overwritten.", "quantifier": "every vector, type, presence of out", "why_tests_cant": "statement over all vectors", "anchors": ["apop_stats.m4.c:apop_vector_normalize"]}
{"id": "C60", "title": "Covariance and correlation matrices have the documented cells, are symmetric and positive semidefinite", "statement": "For a matrix without weights of at least two rows, or with nonnegative weights summing to 1.1 or more: cell (i,j) of apop_data_covariance is the covariance of columns i and j, the matrix is symmetric and x'Cx >= 0 for every x; if no column is constant, apop_data_correlation has cells cov/(sd sd), ones on the diagonal and all cells within [-1,1].", "quantifier": "every data set, every weighting in range, every x", "why_tests_cant": "all matrices", "anchors": ["apop_stats.m4.c:apop_data_covariance", "apop_stats.m4.c:apop_data_correlation"]}
{"id": "C61", "title": "apop_vector_entropy is the entropy of the normalised vector", "statement": "For nonnegative elements not all zero the result is -sum p log p over positive shares; it does not depend on scale or order; it lies between zero and log of the number of positive elements, reached by equal elements; NULL, empty and all-zero vectors give zero; with a negative element and a sum other than zero the result is NaN.", "quantifier": "every vector", "why_tests_cant": "inequality over all distributions", "anchors": ["apop_stats.m4.c:apop_vector_entropy"]}
{"id": "C62", "title": "apop_data_pmf_compress merges equal rows and adds their weights", "statement": "Afterwards each distinct row (vector element, matrix row and text alike; NaN equals NaN) appears once, in order of first appearance, with weight the sum of the weights of all rows equal to it, or their number if there were no weights. The total weight does not change, no row is lost or made up, and compressing again changes nothing.", "quantifier": "every data set whose weights vector, if any, is as long as the data", "why_tests_cant": "all data sets", "anchors": ["model/apop_pmf.c:apop_data_pmf_compress", "model/apop_pmf.c:are_equal"]}
{"id": "C63", "title": "A draw from a weighted PMF gives each row with its share of the weight", "statement": "For nonnegative weights not all zero, and every uniform u in [0,1): the search ends, reads only inside the cumulative vector, and returns the one row i with F(i-1) < u <= F(i) (row 0 if u=0), which has positive weight if u>0; so the u that give row i form an interval of length w_i/sum. The search ends for any weights of nonzero total. With only a vector or only a matrix, what is written is that row.", "quantifier": "every weight vector, every uniform draw", "why_tests_cant": "termination and exactness of a search over all vectors", "anchors": ["model/apop_pmf.c:draw", "model/apop_pmf.c:setup_cmf"]}
{"id": "C64", "title": "Without weights all rows of a PMF are equiprobable", "statement": "As documented: drawing from a PMF whose data has no weights gives every row with the same probability.", "quantifier": "every unweighted PMF and uniform draw", "why_tests_cant": "statement about every draw", "anchors": ["model/apop_pmf.c:draw"]}
{"id": "C65", "title": "The probability of data under a PMF", "statement": "For a PMF with distinct rows, or any PMF after apop_data_pmf_compress: apop_p of a data set is the product over its rows of the row's share of the total weight (1/n without weights), zero if any row is not in the PMF; the probabilities of the distinct rows sum to one.", "quantifier": "every PMF with nonnegative weights of positive total, every data set", "why_tests_cant": "all PMFs and data sets", "anchors": ["model/apop_pmf.c:pmf_p", "model/apop_pmf.c:find_in_data"]}
{"id": "C66", "title": "The CDF of a PMF is the mass up to the point", "statement": "As documented: apop_cdf of a PMF gives the total mass up to the given data point, and zero if the point is not in the data.", "quantifier": "every PMF and point", "why_tests_cant": "all PMFs", "anchors": ["model/apop_pmf.c:pmf_cmf"]}
{"id": "C67", "title": "Kullback-Leibler divergence of synced PMFs", "statement": "For two PMFs with distinct rows, the second having mass wherever the first has: apop_kl_divergence is the sum of p log(p/q) over points with p>0, is never negative, and is zero exactly if the two give every point the same probability.", "quantifier": "every pair of synced PMFs", "why_tests_cant": "inequality over all distributions", "anchors": ["apop_stats.m4.c:apop_kl_divergence"]}
{"id": "C68", "title": "Shared caches of copied models are memory safe", "statement": "Models with an apop_pmf or apop_cdf settings group may be made, copied, drawn from or evaluated and freed in any order: no cached vector, matrix or counter is used after it was freed or freed twice.", "quantifier": "every history of operations on live models", "why_tests_cant": "all histories", "anchors": ["model/apop_pmf.c:apop_pmf_settings_free", "apop_model.m4.c:apop_cdf_settings_free"]}
{"id": "C69", "title": "A PMF estimated from data draws by that data's weights", "statement": "As apop_estimate promises: the model it returns for a data set makes draws by that data set's weights, whatever was done before with the model handed in.", "quantifier": "every history", "why_tests_cant": "depends on history", "anchors": ["model/apop_pmf.c:estim", "apop_model.m4.c:apop_estimate"]}
{"id": "C70", "title": "A Metropolis run is a Metropolis chain", "statement": "For every model, every stream of proposals and every stream of uniforms, if apop_model_metropolis ends, its output rows are consecutive states of a Metropolis chain: every state meets the constraint and has a finite log likelihood; each comes from the one before by replacing one block with a proposal that is taken if no less likely or if log(u) is below the difference in log likelihood, and is otherwise a repetition; blocks take turns; accepts plus rejects is the number of periods; row k is the state of period burn-in + k.", "quantifier": "all models, constraints, block layouts, proposals, uniforms and numbers of periods", "why_tests_cant": "A run of the sampler is one of uncountably many histories; a wrong accept, a rejected draw not restored, or a stale last_ll leaves output that looks like a sample.", "anchors": ["apop_mcmc.m4.c: apop_model_metropolis, main_mcmc_loop, one_step"]}
{"id": "C71", "title": "The chain's output is exactly filled", "statement": "With a burn-in fraction that is a whole number of periods, no run writes outside the output matrix and every row of it is written. (Otherwise every run that gets to its last step copies a row to NULL.)", "quantifier": "all periods, burn-in fractions in [0, 1], models, proposals and uniforms", "why_tests_cant": "Depends on the interplay of two truncations for every periods/burn-in pair.", "anchors": ["apop_mcmc.m4.c: apop_model_metropolis, main_mcmc_loop"]}
{"id": "C72", "title": "The accept rule leaves the target distribution as it is", "statement": "The probability of accepting a proposal is min(1, p(new)/p(old)); with symmetric proposals the chain is in detailed balance with the normalised likelihood, which is therefore stationary: on finite state spaces, on any measurable space of parameters with proposals having a density, block by block (the rest of the parameters held), and in particular with the default Normal proposals of any dimension and variance.", "quantifier": "all log likelihoods on finite sets and (measurable ones) on any measurable space, all symmetric proposal distributions, all divisions into blocks", "why_tests_cant": "It is a statement about a probability distribution over runs, not about any run.", "anchors": ["apop_mcmc.m4.c: one_step"]}
{"id": "C73", "title": "Gibbs blocks partition the parameters", "statement": "For parameters without info pages, the blocks of gibbs_chunks a, b and i are, in order, everything, every vector/matrix/weights of every page, and every element of the packed parameters: the starts begin at 0, end at the packed size and cut the packed vector into exactly those pieces.", "quantifier": "all parameter sets of any number of pages and all settings of gibbs_chunks", "why_tests_cant": "The block layout must agree with apop_data_pack's layout for every combination of parts and pages.", "anchors": ["apop_mcmc.m4.c: set_block_count_and_block_starts", "apop_conversions.m4.c: apop_data_pack"]}
{"id": "C74", "title": "Log likelihoods of the stock distributions", "statement": "For data in its support, the log likelihood of the normal, lognormal, exponential, gamma, beta, Bernoulli, Poisson, Zipf, Yule, t and uniform models is the log of the product, over all elements of vector and matrix, of the distribution's density, whatever the arrangement of the data; outside the support the Poisson and uniform give minus infinity. (The beta, gamma and exponential do not give minus infinity outside their support: separate counterexamples.)", "quantifier": "all data sets (any sizes, any mix of vector and matrix) and all admissible parameters", "why_tests_cant": "The formula must hold for every parameter and every arrangement of the data; tests check a few points.", "anchors": ["model/apop_normal.c", "model/apop_exponential.c", "model/apop_gamma.c", "model/apop_beta.c", "model/apop_bernoulli.c", "model/apop_poisson.c", "model/apop_zipf.c", "model/apop_yule.c", "model/apop_t.c", "model/apop_uniform.c"]}
{"id": "C75", "title": "Scores are the derivatives of the log likelihoods", "statement": "The score vector of the normal, lognormal, exponential, gamma, beta and Yule models for data in the support, and of the Poisson for data in a matrix, is the vector of partial derivatives of the log likelihood. (Separate counterexamples: the Poisson with a vector, the gamma with a zero in the data.)", "quantifier": "all data sets and all admissible parameters", "why_tests_cant": "Numerical comparison checks finitely many points to finite precision; an optimiser visits points no test has.", "anchors": ["model/apop_normal.c: normal_dlog_likelihood", "model/apop_gamma.c: gamma_dlog_likelihood", "model/apop_beta.c: beta_dlog_likelihood", "model/apop_poisson.c: poisson_dlog_likelihood", "model/apop_yule.c: yule_dlog_likelihood"]}
{"id": "C76", "title": "Closed-form estimates maximise the likelihood", "statement": "The estimate of the Poisson, Bernoulli and uniform models for any arrangement of the data, of the exponential for data in one part, the mean of the normal for data in one part and both parameters of the normal for data in a matrix are the parameters with the largest likelihood among all parameters. (Separate counterexamples: the exponential with vector and matrix both, the normal's standard deviation from a vector; the normal with both parts does not come back.)", "quantifier": "all data sets and all rival parameters", "why_tests_cant": "Maximality is a statement about all rival parameters.", "anchors": ["model/apop_exponential.c: exponential_estimate", "model/apop_poisson.c: data_mean", "model/apop_bernoulli.c: bernoulli_estimate", "model/apop_uniform.c: uniform_estimate", "model/apop_normal.c: normal_estimate, get_mu_var"]}
{"id": "C77", "title": "Conjugate updates follow Bayes' rule", "statement": "For each pair in the conjugate table (beta/binomial, beta/Bernoulli, gamma/exponential and gamma/Poisson with one number per row, normal/normal with a matrix) the prior's density times the likelihood of the data is the posterior's density times a positive constant that does not depend on the parameter, and updating by two data sets in turn is updating by both at once. (Separate counterexamples: the two gamma pairs with several numbers per row.)", "quantifier": "all prior parameters, all data, all parameter values", "why_tests_cant": "The proportionality holds at every parameter value; tests compare moments of one posterior.", "anchors": ["apop_update.m4.c: betabinom, betabernie, gammaexpo, gammapoisson, normnorm"]}
{"id": "C78", "title": "Method-of-moments estimates match the moments", "statement": "For data in one part (a vector or a matrix) with mean and variance in range, the gamma and beta estimates are admissible parameters whose distribution has exactly the mean and variance of the data. (Separate counterexamples: data with both a vector and a matrix.)", "quantifier": "all data sets with a mean and variance in range", "why_tests_cant": "The identity must hold for all data, and in every arrangement of it.", "anchors": ["model/apop_gamma.c: gamma_est", "model/apop_beta.c: beta_estimate"]}
{"id": "C79", "title": "Fixed parameters stay fixed", "statement": "apop_model_fix_params: the fixed model has one parameter for each NaN in the parameters given, over all pages, vectors and matrices. In any history of evaluations, the base model is always evaluated at the given parameters with the NaNs replaced, in order, by the fixed model's current parameters: no fixed parameter ever changes and nothing of an earlier evaluation is left. With parameters of one page, values moved by a constraint are read back from the places of the NaNs, in order. (Separate counterexample: on a second page they are not read back.)", "quantifier": "all parameter sets and NaN patterns, all sequences of evaluations", "why_tests_cant": "A claim about every pattern of missing values and every history of evaluations.", "anchors": ["transform/apop_fix_params.c: fix_params_ll, unpack, pack, find_nans, apop_model_fix_params"]}
{"id": "C80", "title": "Data-constrained models are the base model renormalised", "statement": "apop_model_dconstrain: in any sequence of evaluations, with any parameters and data, the log likelihood is minus infinity if an observation is outside the constraint, else the base model's at those parameters less, per observation, the log of the share of the base density inside at those parameters; the cached share is never stale. If that share is exact, the constrained density integrates to one. A draw is the base model's first draw inside; over a finite base model its law is the base law given the constraint. (Separate counterexample: after copying the model, the two copies share the cache key but not the value.)", "quantifier": "all base models, constraints, parameters, histories of evaluations, draw sequences", "why_tests_cant": "Cache staleness depends on the history; the law of the draws is a limit statement.", "anchors": ["transform/apop_dconstrain.c: dc_ll, dc_rng, is_stale, get_scaling"]}
{"id": "C81", "title": "Mixture weights, CDF and parameters", "statement": "apop_mixture: the odds of the components for an observation are exp(x_i)/sum exp(x_j) and sum to one; the weights found in an estimation step are positive and sum to one; the CDF, with weights not negative and not all zero, is between the components' bounds and monotone if theirs are; evaluating the mixture gives each component exactly its own slice of the parameter vector. (Separate counterexamples: the log likelihood adds the weights themselves, not their logs, and takes the largest component; a component without parameters stops the ones after it from being set; the constraint writes over the weights.)", "quantifier": "all numbers of components, weights, data and component likelihoods", "why_tests_cant": "The identities must hold for all data, weights and component counts.", "anchors": ["transform/apop_mixture.c: find_closest, mixture_ll, mixture_cdf, unpack, mixture_constraint, prep"]}
{"id": "C82", "title": "Cross products split the data, combine the answers and put the data back", "statement": "apop_model_cross of any number of models, nested and with any split pages: the log likelihood is the sum, the probability the product, of the sub-models' answers about their own pages (those before the first page of the split title, compared without regard to case; that page and those after), estimation estimates each from its own pages, and afterwards every page link is as before. A draw fills exactly dsize numbers, the sum of the sub-models' sizes, with the sub-models' draws in order. (Separate counterexamples: one model; data read as draws; a nested cross product as first model.)", "quantifier": "all trees of models, page lists, titles, buffers", "why_tests_cant": "The relinking of pages must be exact for every page list, nesting and title placement.", "anchors": ["transform/apop_cross.c: get_second, repaste, cross_est, cross_ll, cross_p, cross_draw, apop_model_cross_base"]}
{"id": "C83", "title": "Unique elements are the distinct values in order", "statement": "apop_vector_unique_elements of any vector (NaN included, as one value, last) and apop_text_unique_elements of any text column with at least one row return without leaving the block, and give exactly the distinct values, each once, in increasing order; so the answer depends only on the set of values. (Separate counterexample: text without rows.)", "quantifier": "all vectors and text columns, any correct sort", "why_tests_cant": "The in-place squeeze of repetitions must be right for every pattern of repeats.", "anchors": ["apop_regression.m4.c: apop_vector_unique_elements, apop_text_unique_elements, compare_doubles, strcmpwrap"]}
{"id": "C84", "title": "Dummies and factors code each row's own category", "statement": "apop_data_to_dummies for a column not yet categorised: the categories are the distinct values in order, and each row has a 1 in the column of its own category (if kept) and 0 elsewhere; with keep_first every row has exactly one 1. apop_data_to_factors: each row's output gets the index of its own value's category, and nothing else changes. (Separate counterexamples: a stored category list lacking a value; dummies from a vector; numeric factors into a new vector.) (Numeric factors into a new vector work if there are at least as many matrix columns as rows, and write past the end otherwise.)", "quantifier": "all columns, category lists, output columns", "why_tests_cant": "bsearch must find every category for every list length.", "anchors": ["apop_regression.m4.c: apop_data_to_dummies, apop_data_to_factors, dummies_and_factors_core, apop_data_get_factor_names"]}
{"id": "C85", "title": "The dot product is the mathematical product of the chosen parts", "statement": "apop_dot of any two sets with any form flags: with sizes that fit, exactly the matrix/vector product of the chosen, perhaps transposed, parts, without error; else an error code and no numbers; names come from the left's rows and the right's columns (swapped if transposed). Products of three matrices associate.", "quantifier": "all data sets, flags and sizes", "why_tests_cant": "All combinations of part, transposition and size.", "anchors": ["apop_linear_algebra.m4.c: apop_dot, check_form, dot_with_names"]}
{"id": "C86", "title": "OLS minimises the (weighted) sum of squared errors", "statement": "apop_estimate with apop_ols (default settings), weights not negative: succeeds exactly when the columns are independent where weights are nonzero; the parameters are the unique minimiser of \u03a3 w(y - xb)\u00b2, residuals orthogonal to every column; exact linear data are recovered exactly with zero error variance; adding a linear function to y adds its coefficients. With n > k the error variance is the loss over n - k, the covariance is it times (X'WX)\u207b\u00b9, symmetric, with nonnegative diagonal. Unweighted, <Predicted> has observed, predicted and predicted - observed (the documentation says the opposite sign: separate counterexample; and with weights the page is of scaled data). Data without vector: first column on a constant and the others.", "quantifier": "all data, weights, sizes", "why_tests_cant": "A statement about all alternative parameter vectors and all data.", "anchors": ["model/apop_ols.c: ols_shuffle, ols_prep, xpxinvxpy, apop_estimate_OLS"]}
{"id": "C87", "title": "R squared", "statement": "apop_estimate_coefficient_of_determination after unweighted least squares with a constant in the span of the columns and at least two rows: SSE, SST and SSR are the sums of squares of y - \u0177, y - \u0233, \u0177 - \u0233, R\u00b2 = 1 - SSE/SST and, unless y is constant, 0 \u2264 R\u00b2 \u2264 1. The adjusted R\u00b2 is 1 - (1-R\u00b2)(n-1)/(n-p) with p the number of columns less one. (Separate: this is not the usual adjusted R\u00b2, with n-p-1; with weights the SSE has the weights twice.)", "quantifier": "all data and sizes", "why_tests_cant": "The bounds hold for all data.", "anchors": ["apop_regression.m4.c: apop_estimate_coefficient_of_determination"]}
{"id": "C88", "title": "Points moved to meet linear constraints", "statement": "apop_linear_constraint leaves a point that meets all constraints alone and returns 0. With one constraint (no margin, or the constraint's vector of length one), or with the default constraint (all elements nonnegative, no margin) in any number of elements and after any history of such calls, a point that does not meet the constraint is moved to the nearest point that does, and the distance is returned. (Separate: with several constraints the result may not meet them; the scratch point of an earlier call may be returned; with a vector not of length one the margin is multiplied by the length's third power.)", "quantifier": "all dimensions, constraints, points, and histories of calls", "why_tests_cant": "Nearest point among infinitely many, for every dimension, and static storage that makes each call depend on all those before.", "anchors": ["apop_linear_constraint.m4.c: apop_linear_constraint, get_candiate, find_nearest_point, trig_bit, add_margin"]}
{"id": "C89", "title": "Jackknife covariance", "statement": "apop_jackknife_cov on data of at least two rows, for any estimation giving as many parameters each time: the (a,b) element is the sum over the rows of the products of the deviations from their means of parameters a and b as estimated without the row; the overall estimate does not matter; the matrix is symmetric with nonnegative diagonal. (Separate: this is n/(n-1) times the usual jackknife covariance; for the mean, s\u00b2/(n-1) instead of s\u00b2/n.)", "quantifier": "all data, models and sizes", "why_tests_cant": "A formula over all estimators and data sizes; the in-place subset must be right in every turn.", "anchors": ["apop_bootstrap.m4.c: apop_jackknife_cov"]}
{"id": "C90", "title": "Bootstrap samples", "statement": "apop_bootstrap_cov: each draw estimates on as many rows as the data, each a row of the data. If no estimate has a NaN, the rows kept are the estimates in order, one for each iteration, without error. With ignore_nans='y' the function ends, the rows kept are exactly the estimates without NaN in order, as many as iterations, or else there were as many with NaN as iterations and an error is set. (Separate: with ignore_nans='n' rows with NaN are never written, contrary to the documentation, and a first NaN leads to a NULL matrix; the error is 'E', not 'N'.)", "quantifier": "all data, estimators, random streams and numbers of iterations", "why_tests_cant": "Any random stream and any pattern of NaNs; termination.", "anchors": ["apop_bootstrap.m4.c: apop_bootstrap_cov"]}
{"id": "C91", "title": "Raking", "statement": "apop_rake's fitting, on a margin table and initial table of nonnegative weights with a positive total, contrasts of at least one column each: the index finds exactly the cells and total of every combination of values; the result is nonnegative, and zero where the initial table was; it is the initial table times, for each contrast, a factor depending on the cell's values in it only; the margins of the last contrast are met exactly, unless all cells of a combination are zero; if a table with the margins exists on the initial table's nonzero cells, raking stops after a number of rounds known in advance, and all margins are met up to a multiple of the tolerance; it never moves away, in Kullback-Leibler distance, from any such table; a table with the margins already is left alone. (Separate: the error 'c' is set if and only if the tolerance was met in just the last round allowed: if the rounds run out there is no error. Cells with values not in the margin table keep their weight.)", "quantifier": "all tables, contrasts, tolerances and numbers of rounds", "why_tests_cant": "Convergence and the form of the result are claims on every table and unbounded numbers of rounds.", "anchors": ["apop_rake.m4.c: c_loglin, main_loop, one_set_of_values, scaling, index_generate, index_get_element_list, find_val"]}
{"id": "C92", "title": "Moving average", "statement": "apop_vector_moving_average(v, bw): for a bandwidth of one or more whose window (bw if odd, bw+1 if even) is no longer than v, the result has length(v) - window + 1 elements, each the mean of its window, and so within any bounds on v's elements; a bandwidth of 0 or 1 gives v itself. (Separate: a window longer than the vector wraps the unsigned size, and a huge allocation is tried instead of NULL.)", "quantifier": "all vectors and bandwidths", "why_tests_cant": "A claim on every vector, bandwidth and position.", "anchors": ["apop_hist.m4.c: apop_vector_moving_average"]}
{"id": "C93", "title": "Data to bins", "statement": "apop_data_to_bins: with given bins of positive width, each value is replaced by the lower end, offset plus a whole number of widths, of the bin that holds it; every element of every column, by its own column's bins; binning again changes nothing. Without bins, for a column not constant, the bins start at its minimum, there are as many as asked for (or the root of the number of rows), each value is in its bin, and the maximum in the last. (Separate: constant columns become NaN; with given bins and close_top_bin='y', zero is moved a bin down; in double precision the maximum of data with range >= 8 gets a bin of its own.)", "quantifier": "all data, bin specifications, bin counts", "why_tests_cant": "Values on bin boundaries are among infinitely many; idempotence is over all values.", "anchors": ["apop_hist.m4.c: apop_data_to_bins"]}
{"id": "C94", "title": "Two-sample Smirnov distribution", "statement": "psmirnov2x(x, m, n), which apop_test_kolmogorov uses for two samples, is the portion of the (m+n choose m) orders of the samples' elements whose statistic is at most x (less a 10^-7/(mn) margin); at a value the statistic can take, 1 minus it is the portion with a statistic at least as large; it does not depend on the order of the samples.", "quantifier": "all sample sizes and statistics", "why_tests_cant": "The number of orders is exponential in the sizes, and sizes are unbounded.", "anchors": ["apop_hist.m4.c: psmirnov2x"]}
{"id": "C95", "title": "One-sample Kolmogorov distribution", "statement": "The one-sample p value's kolmogorov_2x(n, d) is n!/n^n times the middle element of the n-th power of Marsaglia, Tsang and Wang's matrix, for all n >= 1 and d >= 0; the power by repeated squaring with rescaling is exactly the power; for n = 1 the result is the distribution function max(2d-1, 0). (Separate: exponent 0 never terminates.)", "quantifier": "all sizes and distances", "why_tests_cant": "Any number of squarings and rescalings.", "anchors": ["apop_hist.m4.c: m_multiply, m_power, kolmogorov_2x"]}
{"id": "C96", "title": "Kolmogorov test statistic", "statement": "apop_test_kolmogorov of a sorted sample without ties against a model: the statistic is the largest difference of the two distribution functions at the observations; it is at most the supremum of the difference everywhere, and at least that less the largest weight; p value and confidence sum to one; for two samples the p value at an attainable statistic is the portion of orders with a statistic as large or larger. The documented claim, that the statistic is the Kolmogorov(-Smirnov) distance, is refuted: only the upper end of jumps is looked at, the second loop compares the second model with itself, and two samples with no observation in common always have distance 1.", "quantifier": "all samples, weights, models", "why_tests_cant": "The supremum is over a continuum, and the claim on all samples.", "anchors": ["apop_hist.m4.c: apop_test_kolmogorov, ks_tests"]}
{"id": "C97", "title": "Goodness of fit", "statement": "apop_histograms_test_goodness_of_fit: with no expected value zero, the statistic is the sum of (o-e)^2/e over the bins with observations, degrees of freedom their number less one, the p value the chi-squared upper tail there and confidence the rest; a zero expected value makes the statistic infinite; with positive expected values the statistic is nonnegative, and zero just if each bin with an observation has what is expected. (Separate: the documented sum over all bins is larger by the expected values of the bins without observations; with normalised weights or raw counts the statistic is not Pearson's.)", "quantifier": "all pairs of histograms", "why_tests_cant": "All histograms of any length.", "anchors": ["apop_hist.m4.c: apop_histograms_test_goodness_of_fit, one_chi_sq"]}
{"id": "C98", "title": "t tests", "statement": "apop_t_test and apop_paired_t_test: two-tailed p is twice the one-tailed, which is the smaller tail's mass, confidences are the complements, all in [0,1]; the mean difference and degrees of freedom (n1+n2-2, n-1) are right; the statistic is the mean difference over the root of the variances each divided by size less one; exchanging the samples flips the signs and keeps the p values; results do not depend on unit and origin; samples without variance give NaN or an infinite statistic with p value 0. (Separate: the variances, sample variances already, should be divided by the size: the statistic is too small by the factor sqrt((n-1)/n).) A sample of one has no variance part: the standard error is that of the other sample alone, with n-1 degrees of freedom.", "quantifier": "all samples of two or more elements, all t distribution functions", "why_tests_cant": "Symmetries and closed forms over all samples.", "anchors": ["apop_tests.m4.c: apop_t_test, apop_paired_t_test, produce_t_test_output"]}
{"id": "C99", "title": "F test", "statement": "apop_f_test, for hypotheses Q b = c not touching the constant term: the statistic is (Qb-c)'(Q(X'X)^-1Q')^-1(Qb-c)/SSE times (rows less hypotheses)/hypotheses though the code takes the columns' means out first; it is nonnegative, and zero just if the parameters meet the hypotheses; error 'i' just if X'X is singular or the hypotheses redundant. (Separate: the second degrees of freedom should be rows less parameters; hypotheses on the constant are tested wrongly; the user's contrast set may come back with a dangling vector.)", "quantifier": "all data sets with a constant column, parameters and hypotheses", "why_tests_cant": "An identity over all full-rank matrices.", "anchors": ["apop_tests.m4.c: apop_f_test"]}
{"id": "C100", "title": "Independence test", "statement": "apop_test_anova_independence on a table with two or more rows and columns, positive margins and whole total: Pearson's chi-squared statistic against rowsum*colsum/total, (r-1)(c-1) degrees of freedom, and the upper tail; nonnegative, and zero just for independence; the same for the transposed table. (Separate: empty rows give NaN, fractional totals are cut down, totals below 1 give NaN, tables of one row always give 0, of one column have a degree of freedom too many.)", "quantifier": "all tables", "why_tests_cant": "All tables of any shape.", "anchors": ["apop_tests.m4.c: apop_test_anova_independence, one_chi_sq"]}
{"id": "C101", "title": "ANOVA tables", "statement": "apop_anova: the total sum of squares is that about the overall mean; rows' sums of squares and degrees of freedom add up to the total's; groupings have groups less one degrees of freedom; mean squares and F ratios are the quotients; and the total decomposes into between and within. The claim that the grouping's row is the between-groups sum of squares is refuted (it is the first group's variance times groups less one), as are the degrees of freedom of the total and the p value's tail. The F ratio of each grouping is its mean squares over the residual's, the p value that of the F distribution with the two degrees of freedom, the confidence one less that.", "quantifier": "all groupings of all data", "why_tests_cant": "All tables.", "anchors": ["apop_tests.m4.c: apop_anova, apop_anova_one_way"]}
{"id": "C102", "title": "p value look-up", "statement": "apop_test: t, F, chi-squared, lognormal and uniform one-tailed p values are the mass on the side asked for; names in any case; normal and uniform default parameters; NaN without degrees of freedom; two-tailed normal and t p values are the mass at least as far out on both sides, within [0,1]. (Separate: the normal's 'u' and 'l' are exchanged; the two-tailed uniform p value is at least 1; NULL crashes; unknown names and two-tailed F give 0; the lognormal's second default stays 0.)", "quantifier": "all statistics, parameters, names", "why_tests_cant": "All statistics and letter cases.", "anchors": ["apop_tests.m4.c: apop_test"]}
{"id": "C103", "title": "SQL moments", "statement": "The SQL aggregates apop adds to SQLite: var, var_samp (stddev, stddev_samp) are the sample variance (its root) of two or more numbers, the same as apop_vector_var; variance, var_pop (std, stddev_pop) the population's; skew equals apop_vector_skew; no rows give NULL and one row 0. (Separate: var and variance differ; kurt(osis) is neither the fourth moment nor apop_vector_kurtosis; NULLs are counted as zeros.)", "quantifier": "all columns of numbers and NULLs", "why_tests_cant": "The sums are accumulated over columns of any length.", "anchors": ["apop_db_sqlite.c: twoStep, threeStep, fourStep, varFinalize, skewFinalize, kurtFinalize"]}
{"id": "C104", "title": "Query to data, vector, number", "statement": "apop_query_to_data: for every answer SQLite gives, without rows the result is NULL; otherwise the matrix has a row for each row and a column for each column other than the first named like apop_opts.db_name_column in any case, each element as a number, or NaN for NULL, 'NULL' or the NaN string; column names are the answer's; the row names are those of the names column; an error is flagged with what there was before it. apop_query_to_vector gives the first column and apop_query_to_float its first element, NaN without rows or on an error. (Separate: a NULL row name shifts the later names up a row; apop_query_to_vector reads through NULL on a failed query.)", "quantifier": "all answers: any number of rows and columns, any strings and NULLs, any option settings", "why_tests_cant": "Rows arrive one by one through a callback, in any number.", "anchors": ["apop_db.m4.c: apop_query_to_data, db_to_table, apop_query_to_vector, apop_query_to_float"]}
{"id": "C105", "title": "Query to text", "statement": "apop_query_to_text: for every answer of fewer than 2^31-1 rows with a column that is not the names', whose strings have no percent sign, the text has a row for each row and a column for each column but the names', each cell the database's string or the NaN string for NULL; text names and row names are the answer's; without rows NULL. (Separate: strings are used as printf formats, so that a percent sign is undefined behaviour or lost; an answer of names alone gives NULL.)", "quantifier": "all answers", "why_tests_cant": "Any number of rows and strings; the grid is resized for each row.", "anchors": ["apop_db_sqlite.c: db_to_chars, apop_sqlite_query_to_text"]}
{"id": "C106", "title": "Mixed query", "statement": "apop_query_to_mixed_data: for every list of the letters n, v, m, t, w (either case) and every answer with as many columns as letters, each column goes where its letter says, in order, every row, NULLs as NaN; parts without a letter are not there; row, column, text and vector names are the answer's, and the title the names column's; with fewer columns the error is 'd' and one row only is read. (Separate: further columns do not go to the text as documented: one more gives error 'd' after one row, two more read past the end of the list; two names columns add two names per row.)", "quantifier": "all lists of types, answers", "why_tests_cant": "All combinations of letters, columns and rows.", "anchors": ["apop_db_sqlite.c: count_types, multiquery_callback, apop_sqlite_multiquery"]}
{"id": "C107", "title": "Data to table", "statement": "apop_data_to_db (SQLite, up to 999 columns), for a data set whose parts have the same number of rows and which has no row names, or one for each row, none empty: a table not there before is created with columns for row names, vector, matrix, text, weights in this order and gets one row for each row of the data, values in their columns, NULL for NaN, empty strings and the NaN string; an existing table with as many columns gets the rows appended; other tables stay. (Separate: row names in a text-only set, or of another number than rows, make the insertion fail with an empty table left; an empty row name stops it in the middle; parts of unequal length put values in wrong columns; a set of weights alone writes nothing and reports success.)", "quantifier": "all data sets, databases and table names", "why_tests_cant": "All shapes and contents; positions must agree between the statement that creates and those that insert.", "anchors": ["apop_db.m4.c: apop_data_to_db, run_prepared_statements", "apop_conversions.m4.c: apop_prepare_prepared_statements"]}
{"id": "C108", "title": "Table existence, overwriting", "statement": "apop_table_exists says 1 just if there is a table or view of exactly that name; with removal that one is removed and nothing else, and a second call says 0. apop_data_print to a database with 'w' replaces the table of that name by the new one, with 'a' appends. (Separate: the names differ in case only: it says 0 though SQLite has the table, and 'w' appends instead of overwriting; the default is to overwrite though documented as to append.)", "quantifier": "all databases, names, data sets", "why_tests_cant": "All names, up to letter case.", "anchors": ["apop_db.m4.c: apop_table_exists", "apop_output.m4.c: apop_data_print, apop_prep_output"]}
{"id": "C109", "title": "Prepping a model and setting parameters", "statement": "apop_prep (default) and apop_model_clear: for every model and data set, a size of -1 stands for the data's width (matrix columns, else one for a lone vector); a model without parameters gets a parameter set of exactly the sizes meant, none if all are zero, no new error, a titled info page, and keeps its data pointer; existing parameters are never replaced; the error becomes 'd' exactly when a size is -1 and the data has no width; a second prep with data of positive width (or for a model with no size of -1) changes nothing at all. apop_model_set_parameters gives a copy whose parameters are the given values in row order, or error 'd' for a model sized by its data. (Separate: a second prep without data sets 'd' on a good model; vsize with msize1 but no msize2 allocates a matrix instead of the vector; too few values are read past their end.)", "quantifier": "all models, data sets, value lists", "why_tests_cant": "Sizes and shapes are unbounded; sequences of preps.", "anchors": ["apop_model.m4.c: apop_model_clear, apop_prep, apop_model_set_parameters_base"]}
{"id": "C110", "title": "Probability and log likelihood agree", "statement": "For every model with a p or a log_likelihood method and every data set, apop_log_likelihood is the log of apop_p (minus infinity for zero; both NaN or neither), a method that is there is called as it is, the order of data sets by either is the same, and with neither method, or for NULL, both are NaN.", "quantifier": "all models, methods, data sets", "why_tests_cant": "All functions as methods, over the extended reals.", "anchors": ["apop_model.m4.c: apop_p, apop_log_likelihood"]}
{"id": "C111", "title": "Default CDF", "statement": "In every history of adding, copying and freeing apop_cdf groups and of apop_cdf calls, in which freed groups are not used and points are as wide as the draws: nothing undefined happens; every call returns the fraction of its group's draws at or below the point in every coordinate, in [0,1] and monotone in the point; the draws are those of the group's first call (or of the group it was copied from after that) in all later calls. (Separate: NaN counts as at or below everything; a narrower point is read past its end; the draws stay when the model's parameters change.)", "quantifier": "all histories, draws and points", "why_tests_cant": "Histories of any length over shared memory.", "anchors": ["apop_model.m4.c: apop_cdf, lte, apop_cdf settings init, copy, free"]}
{"id": "C112", "title": "Shared CDF draws are freed once", "statement": "In every such history no matrix of draws is freed twice or used after its freeing; if copies are only made of groups that have their draws, each matrix is freed exactly when its last group is. (Separate: a copy made before the first call makes the draws leak.)", "quantifier": "all histories", "why_tests_cant": "Histories of any length over shared memory.", "anchors": ["apop_model.m4.c: apop_cdf settings init, copy, free"]}
{"id": "C113", "title": "Which draw method runs", "statement": "apop_draw: a model with its own draw method uses it; one without, of dimension one, uses adaptive rejection sampling; any other without an apop_mcmc group gets a chain estimated at its first draw and uses it in all later draws, never estimating another. (Separate: a multivariate model without a draw method but with an apop_mcmc group recurses for ever.)", "quantifier": "all models and sequences of draws", "why_tests_cant": "Includes non-termination.", "anchors": ["apop_model.m4.c: apop_draw"]}
{"id": "C114", "title": "Special-case methods go to the right models", "statement": "After every sequence of registrations: the score found for a model is the first registered for a model with the same likelihood method; the predict and parameter-model methods, for models with estimate methods, the first registered for one with the same estimate method; print methods and conjugate updates are told apart by the log likelihoods. (Separate: by a missing parenthesis the predict and parameter-model hashes ignore the likelihood, so that after a logit is prepped, its prediction method is used for every model without an estimate method; different prior/likelihood pairs may share a hash.)", "quantifier": "all sequences of registrations, all method pointers", "why_tests_cant": "64-bit hashes, histories of any length.", "anchors": ["apop.m4.h: apop_score_hash, apop_predict_hash, apop_parameter_model_hash, apop_model_print_hash, apop_update_hash", "apop_vtables.c"]}
{"id": "C115", "title": "A matrix printed to a file and read again is the same matrix", "statement": "A data set that is a matrix (at least one row and column) with a name for every column, or for none, and a name for every row, or for none, printed with apop_data_print to a file with a one-character delimiter (a tab, comma, semicolon...) and read by apop_text_to_data with that delimiter gives the same shape, column and row names, every cell written, and in each cell the number that was there rounded to six digits after the point: within 5e-7 of it, and equal when six digits are enough. Assumed: names without delimiters, quotes, hashes, backslashes, newlines or blanks at the ends, and numbers that fit an int when truncated. Not so: numbers below 5e-7 become zero; NaN, infinities and numbers of 2^31 or more make p_fn undefined; a set with weights prints a file whose names cannot be read (reads past the list of names). A title, if there is one, comes first: a tab, the title and two newlines, before exactly what is printed without it.", "quantifier": "every matrix, names, delimiter set, buffer size, and every rational entry in int range", "why_tests_cant": "the round trip must hold for all contents; it joins a writer and a reader with separate conventions on padding, runs of delimiters, blanks and the corner over the row names", "anchors": ["apop_output.m4.c: apop_data_print, apop_data_print_core, p_fn, a_pipe, get_max_strlen", "apop_conversions.m4.c: apop_text_to_data, parse_a_line"]}
{"id": "C116", "title": "A printed data set can be loaded into the database", "statement": "A matrix with all columns named, with or without text columns (named) and row names, printed to a file and loaded with apop_text_to_db, gives the column names of matrix then text, and for every row, in order, exactly one record: row name, decimals of the numbers, text, weight.", "quantifier": "every matrix, text grid, names, weights and delimiter as in C115", "why_tests_cant": "any content, width and mixture of parts", "anchors": ["apop_output.m4.c: apop_data_print_core", "apop_conversions.m4.c: apop_text_to_db"]}
{"id": "C117", "title": "Vector and matrix on one printed page", "statement": "With a tab as delimiter (the default) a page with a named vector and a matrix with named columns is read again as one matrix whose first column is the vector under the vector's name. A page with a vector only prints exactly as the one-column matrix under the vector's name. Not so: with a comma or any delimiter that is not white space, the two delimiters written after the vector's element are an empty item, and reading the file with its names reads past the list of names; elements of a vector longer than the matrix are not printed; a page with weights only prints nothing.", "quantifier": "every vector, matrix and names, every delimiter", "why_tests_cant": "all contents and delimiters", "anchors": ["apop_output.m4.c: apop_data_print_core", "apop_conversions.m4.c: apop_text_to_data"]}
{"id": "C118", "title": "Where the pages of a data set are printed", "statement": "Printed to a FILE or the screen, all pages appear in order. Printed to a named file, a data set of one page replaces the file ('w') or is added at its end ('a'). A name alone means a file, a FILE alone that FILE, neither the screen. Not so: further pages to a named file are opened again while the first FILE still holds its page: small pages come out in the opposite order with 'a', and with 'w' the first page is written over the others (they are lost if not longer in all); the default is 'w' although documented as 'a'; a FILE given along with a name is ignored.", "quantifier": "every list of pages, file contents, amount of each page flushed early", "why_tests_cant": "depends on buffering and number and size of pages", "anchors": ["apop_output.m4.c: apop_prep_output, apop_data_print"]}
{"id": "C119", "title": "Numerical gradient", "statement": "apop_numerical_gradient returns, for each parameter, the derivative of the log likelihood along it to within 5/12 M delta^4 (M a bound on the fifth-order remainder), exactly for likelihoods of degree at most four in each parameter, whatever step GSL chooses; all parameters but the last are left as they were. (Refuted: that the model's parameters are left alone -- the last is left larger by up to delta/2; that where the constraint binds the gradient is that of the objective searched -- the penalty has the opposite sign.)", "quantifier": "all numbers of parameters, all likelihoods with a fifth-order remainder bound, all parameter values and nonzero steps", "why_tests_cant": "an identity over all real functions and points; tests sample a few models with loose tolerances that hide the shifted parameter", "anchors": ["apop_mle.m4.c:apop_numerical_gradient", "apop_mle.m4.c:apop_internal_numerical_gradient", "apop_mle.m4.c:one_d"]}
{"id": "C120", "title": "Numerical Hessian", "statement": "apop_model_hessian is symmetric for any model, and equals the second derivatives exactly for quadratic log likelihoods, with or without a score function, whatever the steps; all parameters but the last are as before. (Refuted: that the estimate is left alone -- the last parameter grows with every Hessian.)", "quantifier": "all models, sizes, steps and parameters", "why_tests_cant": "universal over models and dimensions; the drift is of the order of the test tolerances", "anchors": ["apop_mle.m4.c:apop_model_hessian", "apop_mle.m4.c:apop_fn_for_infomatrix"]}
{"id": "C121", "title": "Numerical covariance", "statement": "For a quadratic log likelihood with invertible second derivatives H, apop_model_numerical_covariance is the inverse of -H, symmetric, positive definite at a strict maximum, named by the parameters both ways; it becomes the parameters' covariance page unless there was one. (Refuted: for singular H the result is undefined behaviour, not an error.)", "quantifier": "all quadratic models, sizes, steps, names, existing pages", "why_tests_cant": "matrix identity over all dimensions and models", "anchors": ["apop_mle.m4.c:apop_model_numerical_covariance"]}
{"id": "C122", "title": "Search path", "statement": "Whatever the optimizer, the path of a maximum likelihood search is the earlier path plus one row for each evaluation of the objective, in order: the point (after the constraint moved it) and the likelihood there less the penalty; the optimizer is told minus that value, and its point is moved exactly when there is a penalty; a NaN ends the search.", "quantifier": "all optimizers (as arbitrary adaptive strategies asking for values, gradients or both), all models and constraints", "why_tests_cant": "ranges over all optimizer behaviours and histories", "anchors": ["apop_mle.m4.c:negshell", "apop_mle.m4.c:dnegshell", "apop_mle.m4.c:fdf_shell", "apop_mle.m4.c:tracepath"]}
{"id": "C123", "title": "Reported log likelihood and information criteria", "statement": "If the search ends at the best of the points it evaluated, and the constraint doesn't bind there, the info page's log likelihood is that at the returned parameters, and AIC, AIC_c and BIC follow from it with the number of parameters and of data rows. (Refuted: for searches that end elsewhere a positive best value is reported for parameters that don't have it; for conjugate gradient and Newton methods the parameter count is read after its vector is freed.)", "quantifier": "all optimizers, models, data sizes", "why_tests_cant": "all evaluation histories", "anchors": ["apop_mle.m4.c:negshell", "apop_mle.m4.c:add_info_criteria", "apop_mle.m4.c:auxinfo", "apop_mle.m4.c:find_roots", "apop_mle.m4.c:apop_maximum_likelihood_w_d"]}
{"id": "C124", "title": "Search status", "statement": "The status element tells: for conjugate gradient methods -1 iff an evaluation failed or the last allowed iteration was reached, for the simplex -1 iff an evaluation failed. (Refuted: status 0 means optimum found -- iteration limit (simplex), errors and interrupts report 0; nonzero means trouble -- convergence in the last allowed iteration and every Newton search report -1.) For annealing 0 iff no evaluation failed, interrupts included.", "quantifier": "all sequences of iteration outcomes and interrupts, all limits", "why_tests_cant": "depends on the whole sequence of outcomes and the moment of a signal", "anchors": ["apop_mle.m4.c:apop_maximum_likelihood_w_d", "apop_mle.m4.c:apop_maximum_likelihood_no_d", "apop_mle.m4.c:find_roots"]}
{"id": "C125", "title": "Choice of search and start", "statement": "Every documented method name, in any case, runs its search (or cycles if asked), from the starting point given or all ones; no method means conjugate gradients with a score function and the simplex without; unknown methods do nothing; parts wanted: each on request, tests bring the covariance, information only when there is no such group. (Refuted: a short starting point is an error -- it is read past its end.)", "quantifier": "all method strings, settings, sizes", "why_tests_cant": "all strings and settings", "anchors": ["apop_mle.m4.c:apop_maximum_likelihood", "apop_mle.m4.c:check_method", "apop_mle.m4.c:setup_starting_point", "apop_mle.m4.c:get_desires"]}
{"id": "C126", "title": "Restarting a search", "statement": "A default restart re-estimates from the current parameters and returns the new estimate iff its parameter vector is finite and bounded and its log likelihood larger, else the old one; the loser is freed, the returned model isn't; over any number of restarts the log likelihood never gets worse; a diverged estimate comes back as it is. (Refuted: a matrix of parameters with NaNs is taken; \"es\" with another model ignores the first's start; \"ns\" truncates the old model's start.)", "quantifier": "all estimates, estimation functions, bounds, sequences of restarts", "why_tests_cant": "arbitrary sequences and estimation outcomes", "anchors": ["apop_mle.m4.c:apop_estimate_restart", "apop_linear_algebra.m4.c:apop_vector_bounded"]}
{"id": "C127", "title": "Simulated annealing", "statement": "Whatever the random numbers, annealing returns the most likely of the points it evaluated, all of them (first included) passed or produced by the constraint, and remembers its log likelihood; each parameter moves by at most one scaled step, and with one or two parameters the whole move is exactly one step. (Refuted: moves of at most one step with three or more parameters; on SIGINT the current point is returned -- the starting point is; with one parameter only a grid is searched.)", "quantifier": "all random streams, schedules, models, constraints, dimensions", "why_tests_cant": "all random streams", "anchors": ["apop_mle.m4.c:apop_annealing", "apop_mle.m4.c:annealing_step", "apop_mle.m4.c:annealing_energy", "apop_mle.m4.c:annealing_check_constraint"]}
{"id": "C128", "title": "Cycling over dimensions", "statement": "With dim_cycle_tolerance, the search makes at least two cycles and ends after the first (from the second on) that changes the log likelihood by no more than the tolerance; with one-dimensional searches that never lose ground the result is not worse than the start, and if the likelihood is bounded the cycling ends. (Refuted: it always ends.)", "quantifier": "all likelihoods, one-dimensional searches, tolerances, dimensions", "why_tests_cant": "termination over all search behaviours", "anchors": ["apop_mle.m4.c:dim_cycle"]}
{"id": "C129", "title": "Starting points with fixed parameters", "statement": "A fixed-parameter model with one free parameter starts its search at the base model's starting value for it; for any number, one start per free parameter is read from within the table. (Refuted: with two or more, the second start is a row number.)", "quantifier": "all fill-in tables", "why_tests_cant": "all tables; a wrong start only slows or misleads searches", "anchors": ["transform/apop_fix_params.c:set_starting_point"]}
{"id": "C130", "title": "Logit likelihood", "statement": "When nothing overflows, the logit's log likelihood of a data set is the log of the product over the observations of the documented choice probabilities (e^(x b_c) over the sum of all, the first category as numeraire); these are positive and sum to one; when the guard against overflow strikes, the error is at most (categories-1) e^max, below the smallest doubles. (Refuted: an outcome that isn't one of the categories is reported -- it is counted as the last.)", "quantifier": "all numbers of categories and regressors, all data, parameters and category tables without repetitions, any overflow threshold", "why_tests_cant": "an identity over all real data and dimensions; the guard's branch is reached only at extreme values", "anchors": ["model/apop_probit.c:one_logit_row", "model/apop_probit.c:multilogit_log_likelihood", "model/apop_probit.c:find_index"]}
{"id": "C131", "title": "Logit predictions", "statement": "Each row of apop_predict's matrix for a logit holds the documented choice probabilities, positive and summing to one; its vector element is the first most likely choice; the likelihood of an observation is the probability predicted for what it chose.", "quantifier": "all parameters and data", "why_tests_cant": "all real data; agreement of two separately written formulas", "anchors": ["model/apop_probit.c:multilogit_expected"]}
{"id": "C132", "title": "Probit likelihood and score", "statement": "The binary probit's log likelihood is the log of the product of Phi(xb) for outcomes other than zero and 1-Phi(xb) for zero, each term the log of a number strictly between 0 and 1 whatever rounding does to Phi; its score is the gradient of its log likelihood.", "quantifier": "all data, parameters, dimensions, and (finiteness) all CDF roundings", "why_tests_cant": "derivative identity over all reals", "anchors": ["model/apop_probit.c:biprobit_ll_row", "model/apop_probit.c:biprobit_log_likelihood", "model/apop_probit.c:probit_dlog_likelihood"]}
{"id": "C133", "title": "Multinomial probit", "statement": "With three or more categories the probit's log likelihood is the sum over categories of the binary probits of that category against the others, each with its own column of parameters. (True only in part: all use the second column of the parameters, the last category rather than the numeraire is left out, and a first evaluation where nobody chose the first category is undefined.)", "quantifier": "all tables, data, parameters", "why_tests_cant": "all data; the wrong column gives plausible numbers", "anchors": ["model/apop_probit.c:multiprobit_log_likelihood"]}
{"id": "C134", "title": "Outcome categories", "statement": "The logit and probit count each observation under the category of its outcome when the data has that outcome's category page, when the outcomes are an unnamed first matrix column, or when they are 0..n-1, all present. (Refuted: raw outcomes elsewhere are converted for you -- 1 and 2 in the vector are counted as each other.)", "quantifier": "all data sets, pages and names", "why_tests_cant": "all data sets; wrong categories give a plausible fit", "anchors": ["model/apop_probit.c:get_category_table", "model/apop_probit.c:probit_prep", "model/apop_probit.c:find_index"]}
{"id": "C135", "title": "Logit starting values", "statement": "The starting parameters have one row per data column and one column per category but the first; each is the geometric mean of the magnitudes in its data column, zeros counted as one, so positive and between the extreme magnitudes.", "quantifier": "all data", "why_tests_cant": "all reals and sizes", "anchors": ["model/apop_probit.c:probit_prep"]}
{"id": "C136", "title": "Logit draws", "statement": "A draw from a logit model is a row of inputs from the data with a category drawn by the documented probabilities. (True in part: the category is drawn with the right weights, but it is never written to the output, the output is overrun by one number when there are two or more columns, and the outcome replaces the first input.)", "quantifier": "all data and parameters", "why_tests_cant": "memory and distributional claims over all draws", "anchors": ["model/apop_probit.c:logit_rng"]}
{"id": "C137", "title": "Kernel density likelihood", "statement": "The log likelihood of a kernel density is the log of the product, over the points, of the weighted mean of the kernels' densities there (minus infinity if zero), however the points are split among threads; if the kernels are densities so is the estimate.", "quantifier": "all base data and weights, all kernels, all splits of the points into chunks", "why_tests_cant": "all schedules and all kernels", "anchors": ["model/apop_kerneld.c:kernel_ll"]}
{"id": "C138", "title": "Kernel density CDF", "statement": "The CDF of a kernel density is the weighted mean of the kernels' CDFs: monotone where they are, between their extremes.", "quantifier": "all base data, weights, kernels", "why_tests_cant": "all reals", "anchors": ["model/apop_kerneld.c:kernel_cdf"]}
{"id": "C139", "title": "Kernel density draws", "statement": "For weighted base data in one part, a draw comes from the kernel around the base row in whose share of the cumulative weights the uniform number falls, so each row is used in proportion to its weight. (Refuted: with both vector and matrix the kernel drawn from is not the one the likelihood uses; without weights the last row is never used.)", "quantifier": "all base data, weights, uniform numbers, samplers", "why_tests_cant": "all random numbers", "anchors": ["model/apop_kerneld.c:kernel_draw"]}
{"id": "C140", "title": "Multivariate Normal likelihood", "statement": "For a symmetric covariance of positive determinant the multivariate Normal's log likelihood is the log of the product of the rows' densities, and for a positive definite one that density integrates to one; a singular covariance gives minus infinity, negative determinant NaN; in one dimension it is the Normal. (Refuted: a covariance that isn't symmetric is used as given -- only one triangle of its inverse counts.)", "quantifier": "all dimensions, means, covariances and data", "why_tests_cant": "integral and identity over all dimensions", "anchors": ["model/apop_multivariate_normal.c:apop_multinormal_ll", "model/apop_multivariate_normal.c:x_prime_sigma_x"]}
{"id": "C141", "title": "Multivariate Normal estimate", "statement": "The estimated mean, the columns' means, is for every positive definite covariance the mean making the data most likely, strictly; with no more rows than columns the estimated covariance is singular and the reported log likelihood minus infinity. (Refuted: the estimated covariance too is the most likely one.)", "quantifier": "all data sets, dimensions and covariances", "why_tests_cant": "an optimum over all means and covariances", "anchors": ["model/apop_multivariate_normal.c:multivariate_normal_estimate"]}
{"id": "C142", "title": "Multivariate Normal draws", "statement": "Draws have exactly the distribution whose density the likelihood uses: the expectation of any measurable function of a draw, over independent standard Normals, is its integral against that density.", "quantifier": "all dimensions, means, covariances with a Cholesky factor and all measurable functions", "why_tests_cant": "distributional identity", "anchors": ["model/apop_multivariate_normal.c:mvnrng"]}
{"id": "C143", "title": "Dirichlet", "statement": "For positive parameters with total at least 1e-5 and positive data the Dirichlet's log likelihood is the log of the product of the rows' densities and its score is the gradient of the log likelihood; with two columns it is the Beta; a total within 1e-5 of zero gives NaN. (Refuted: rows that aren't shares have likelihood zero; negative parameters are noticed.)", "quantifier": "all dimensions, parameters and data", "why_tests_cant": "identities over all reals and dimensions", "anchors": ["model/apop_dirichlet.c:dirichlet_log_likelihood", "model/apop_dirichlet.c:dirichlet_dlog_likelihood"]}
{"id": "C144", "title": "Coordinate transform likelihood", "statement": "The log likelihood of a transformed model is the base model's at the data taken back plus the log of the Jacobian (minus infinity where it is zero; NaN with a part missing); for independent observations with the product of derivatives as Jacobian it is the likelihood of the transformed density, which gives every set the probability of its image; logs taken back to a Normal give the lognormal. (Refuted: the documentation's example gives the lognormal's likelihood -- its Jacobian is a sum; a decreasing transformation may be given by its derivative -- NaN.)", "quantifier": "all base models, transformations, data", "why_tests_cant": "all functions; the example's test cannot see a factor free of parameters", "anchors": ["transform/apop_coordinate_transform.c:ct_ll", "eg/jacobian.c"]}
{"id": "C145", "title": "Coordinate transform parameters", "statement": "After preparation, what is written into the transformed model's parameters is what its likelihood is evaluated with. (Refuted: a copy has parameters of its own -- the likelihood keeps using the original's; two estimates from one transform are independent -- they share parameters, and freeing both frees them twice; without settings the model is marked and left alone -- undefined.)", "quantifier": "all memory states, parameters, sizes", "why_tests_cant": "aliasing over all sequences of copies, preparations and frees", "anchors": ["transform/apop_coordinate_transform.c:jacobian_prep", "apop_model.m4.c:apop_model_copy", "apop_model.m4.c:apop_model_free"]}
{"id": "C146", "title": "Multinomial/binomial log likelihood is the log of the product of the rows' probabilities", "statement": "apop_log_likelihood of apop_multinomial with parameters (n, p1..pk), n != 2, and rows of k+1 counts is the log of the product over rows of the multinomial probability of the row, with p0 = 1 - p1 - ... - pk; the parameters are unchanged afterwards. For n = 2 with two bins the same. Those probabilities are nonnegative and sum to one over all rows of a given total. False for n = 2 with three bins (only one bin is used), row totals are not compared with n, and rows with too few bins are read past their end.", "quantifier": "all n, all parameter vectors with p1 <= 1, all numbers of rows and bins, all counts", "why_tests_cant": "a statement about every count table and parameter vector; the special case n == 2 confounds n with the number of parameters and is seen only for that n", "anchors": ["model/apop_multinomial.c: multinomial_log_likelihood, binomial_ll, make_ps, unmake_ps, apop_multinomial"]}
{"id": "C147", "title": "Multinomial estimation gives the bins' shares, which maximise the likelihood", "statement": "apop_estimate of apop_multinomial on a table of counts with a positive total gives as probabilities the column totals divided by the grand total (p0 the rest), and n the average row total cut to an integer; no other probability vector makes the data more likely. The <Covariance> page is symmetric with n p(1-p) on the diagonal and -n pi pj off it (the covariance of one row's counts), not the variance of the estimated probabilities.", "quantifier": "all tables of counts with at least one column and a nonzero total, all competing probability vectors", "why_tests_cant": "optimality over all competing probability vectors", "anchors": ["model/apop_multinomial.c: multinomial_estimate, get_multinomial_params"]}
{"id": "C148", "title": "Multinomial draws have the multinomial law", "statement": "apop_draw from apop_multinomial with whole n and probabilities p1..pk >= 0 with sum <= 1 writes k+1 counts; each list of counts with total n comes with its multinomial probability, any other with probability zero; the parameters are as before. A non-whole n in the parameters is cut by the draw. For a binomial the misses come first and two numbers are written although draws are declared of size one; after an estimation dsize is n, not the number of bins. If all observations have the same total N, the n estimated and dsize are N.", "quantifier": "all n, all probability vectors, all lists of counts", "why_tests_cant": "equality of probability laws for every outcome; sampling can only give approximate agreement", "anchors": ["model/apop_multinomial.c: multinomial_rng, make_ps, unmake_ps"]}
{"id": "C149", "title": "Zipf draws have the Zipf law", "statement": "apop_draw from apop_zipf with parameter a > 1 ends with probability one and writes a whole number from one; each k has probability in proportion to k^(-a): among draws that do not overflow the share of k is k^(-a)/sum_j j^(-a) over the numbers an int can hold, and were ints unbounded it is k^(-a)/zeta(a). The candidate is converted to int without a check: with a = 1.1 more than one draw in sixteen overflows (undefined), and with a = 1, which is let through, no draw has a defined result.", "quantifier": "all parameters a > 1, all k, all bounds on integers, all streams of uniform numbers", "why_tests_cant": "exact equality of a probability law over infinitely many outcomes, and termination with probability one", "anchors": ["model/apop_zipf.c: zipf_rng"]}
{"id": "C150", "title": "Yule draws have the Yule law", "statement": "apop_draw from apop_yule with parameter b > 1 writes n with probability (b-1) Gamma(b) Gamma(n)/Gamma(n+b), the distribution in its documentation, for every n from one an int can hold. The parameter is not checked: at one no draw has a defined result and below one almost none.", "quantifier": "all b > 1, all n", "why_tests_cant": "exact equality of a probability law for a continuum of parameters", "anchors": ["model/apop_yule.c: yule_rng"]}
{"id": "C151", "title": "Distribution functions and draws of the stock models agree", "statement": "For apop_uniform (min < max), apop_exponential (mu > 0), apop_bernoulli (0 <= p <= 1), apop_normal, apop_lognormal (x > 0) and apop_t_distribution (sigma > 0), apop_cdf of a data set whose first number (of the vector, or of the matrix without one) is x is the probability that apop_draw gives at most x; for the uniform and the exponential it is also the integral of the density the likelihood uses. Uniform draws are in [min, max), Bernoulli draws are zero or one, normal draws are normal with mean mu and variance sigma^2. Data without a number are read out of bounds.", "quantifier": "all parameters in their ranges, all data sets, all x", "why_tests_cant": "equality of two functions at every real point and of a probability with a function value", "anchors": ["model/apop_uniform.c: unif_cdf, uniform_rng", "model/apop_exponential.c: expo_cdf, exponential_rng", "model/apop_bernoulli.c: bernoulli_cdf, bernoulli_rng", "model/apop_normal.c: normal_cdf, normal_rng, lognormal_cdf, lognormal_rng", "model/apop_t.c: apop_t_dist_cdf, apop_t_dist_draw"]}
{"id": "C152", "title": "Adaptive rejection sampling sets up an envelope above a log-concave density", "statement": "apop_arms_settings with at least three increasing points within the bounds, room for twice as many nodes and one more, and a convexity not negative: for a log density concave between the bounds setting up succeeds, and the piecewise linear envelope it makes is nowhere below the log density between the bounds. Without Metropolis steps a log density that is not concave can make it fail.", "quantifier": "all concave log densities, bounds, starting points, all x between the bounds", "why_tests_cant": "the inequality must hold at every real x for every concave function", "anchors": ["apop_arms.c: initial, meet"]}
{"id": "C153", "title": "After any history of draws the envelope is sound", "statement": "Whatever points have been drawn and put into the envelope: its points lie on the log density, in strictly increasing order within the bounds; every intersection is where the chords of the neighbouring points meet, and lies between its neighbours (errors 31 and 32 never come up); there are never more nodes than npoint. A point is added as drawn or, if within a hundred-thousandth of an end, moved there; none is lost. Updating never fails with Metropolis steps, nor for a log-concave density without; and for a log-concave density the envelope is nowhere below it.", "quantifier": "all log densities, all histories of updates, all x", "why_tests_cant": "an invariant of a linked structure over unbounded histories", "anchors": ["apop_arms.c: update, meet"]}
{"id": "C154", "title": "A draw from the envelope follows the envelope", "statement": "For any envelope that can come up, with no node more than 100 below the highest, and any uniform number v in [0,1), the point found lies in a piece of positive length and the integral of the exponentiated envelope up to it is v times its whole integral: exactly, unless the piece is flat (ends differing by at most a thousandth of their sum), when it is within a four-thousandth of that piece's area. The height returned is the envelope's height there. (Where the line rises by less than a tenth the chord of the exponential is used, which is above the exponential of the line.)", "quantifier": "all envelopes that can come up, all uniform numbers", "why_tests_cant": "equality of integrals for a continuum of envelopes and numbers", "anchors": ["apop_arms.c: cumulate, area, invert, expshift, logshift"]}
{"id": "C155", "title": "apop_arms_draw draws from a log-concave density", "statement": "For a (measurable) log density concave between the bounds, and any envelope that can come up (no node more than 100 below the highest, no flat piece): the probability that a round gives out a point of B is a constant times the integral of the density over B between the bounds, so whatever was drawn before, a point given out follows the density cut to the bounds, with the squeezing test or without it, and with Metropolis steps (the default) too, which then never stay at the previous point. For other densities the Metropolis step is in detailed balance with the density for trial points following the smaller of density and envelope, unless the ratio is below e^-50. Draws never lie beyond the bounds (by default -10.1 and 10.1, whatever the density).", "quantifier": "all concave log densities, all envelopes that can come up, all measurable sets, all streams of uniform numbers", "why_tests_cant": "exact equality of a probability law, for every history", "anchors": ["apop_arms.c: test, apop_arms_draw"]}
{"id": "C156", "title": "Instrumental variables solve their moment conditions", "statement": "Estimating apop_iv with instruments given by number or by name: Z is the data with each named or numbered column replaced by the (last) instrument for it; the parameters are the one solution of Z'\u221aW(X\u03b2\u2212y)=0 and the estimation goes through exactly when there is only one; if y = Xb + u with u orthogonal to the instruments the estimate is b; <Covariance> C satisfies (Z'\u221aW X) C (Z'\u221aW X)' = \u03c3\u00b2 Z'Z, is symmetric with diagonal \u2265 0, \u03c3\u00b2 is the sum of squared residuals over n\u2212k; unweighted with Z = X everything equals apop_ols. Fails as documented: without instruments (documented: just OLS) NULL is dereferenced; weights enter by their roots, so Z = X with weights is not weighted least squares.", "quantifier": "every data set, weights, set of instruments, names and parameter vector", "why_tests_cant": "all matrices of all sizes; uniqueness ranges over all parameter vectors", "anchors": ["model/apop_ols.c: prep_z, apop_estimate_IV, xpxinvxpy"]}
{"id": "C157", "title": "The log likelihood of a linear regression", "statement": "apop_log_likelihood of apop_ols for a data set that is not the model's own is the sum over rows of the logs of the Normal density of the dependent variable around the predictor (variance: <Error variance>, else the sample variance of the errors), of the weight and of the input distribution's probability of the row; data without a vector count as if prepared; without weights least squares uniquely maximises it at any fixed variance; without weights the model's own data give the same by the stored residuals, and the value reported is \u2212(n/2)log(2\u03c0\u03c3\u00b2)\u2212(n\u2212k)/2. Fails: on own data it does not depend on the parameters once <Predicted> is there; the weights only add a constant, so the weighted estimate does not maximise it; with weights own data and a copy of them differ.", "quantifier": "every data set, parameter vector, variance, weights and positive input density", "why_tests_cant": "reals, all sizes, all competing parameter vectors", "anchors": ["model/apop_ols.c: ols_log_likelihood"]}
{"id": "C158", "title": "The score of a linear regression", "statement": "For prepared data the score of apop_ols is minus the gradient in the parameters of the weighted Normal log likelihood at the sample variance of the errors; it is zero exactly at the (weighted) least squares estimate. Fails as documented: its sign is wrong wherever it is not zero; for data without a vector the first column, the dependent variable, is used in place of the constant.", "quantifier": "every data set, weights and parameter vector with errors not all alike", "why_tests_cant": "derivatives at every point", "anchors": ["model/apop_ols.c: ols_score", "model/apop_normal.c: normal_dlog_likelihood"]}
{"id": "C159", "title": "Predictions of a linear regression", "statement": "apop_predict with apop_ols fills the vector with the predictor of each row: parameters times columns, the first column taken as a constant if the data had no vector (its former values then do not matter); weights and, for prepared data, the matrix are left; predicting again changes nothing; for the data of an unweighted estimation it gives the second column of <Predicted>.", "quantifier": "every data set and parameter vector", "why_tests_cant": "all sizes and values", "anchors": ["model/apop_ols.c: ols_predict, ols_shuffle"]}
{"id": "C160", "title": "Draws from a linear regression", "statement": "A draw from apop_ols with an input distribution: the first element is the predictor of the drawn row plus Normal noise of variance SSE/n (which unweighted is (n\u2212k)/n of the error variance reported), the row follows; jointly, P(row in B, y in A) is the integral over B of the Normal probability of A; without an input distribution 2 is returned and nothing written. Fails: an array of the documented size dsize is one too short, so with two columns or more every draw overruns it; with the documented apop_pmf of the regression's data the drawn row has the dependent variable in place of the constant.", "quantifier": "every parameter vector, SSE, input law, measurable sets", "why_tests_cant": "a law is a statement about all events", "anchors": ["model/apop_ols.c: ols_rng", "apop_model.m4.c: apop_model_clear", "model/apop_pmf.c: draw"]}
{"id": "C161", "title": "Tests of estimated parameters", "statement": "After least squares, for each parameter with positive variance: p value is the probability that a symmetric law without atoms, whose distribution function gsl_cdf_tdist_P at df = max(1, n\u2212k) is, exceeds |estimate/standard error| in absolute value; confidence is one less it; both are in [0,1], and p does not grow with |estimate/standard error|; without variance: 0 and 1, or NaN for a zero estimate. Fails for models without their own parameter model: the variance is used as standard deviation.", "quantifier": "every estimate, every symmetric law", "why_tests_cant": "all real estimates and a whole class of laws", "anchors": ["apop_regression.m4.c: apop_estimate_parameter_tests", "model/apop_ols.c: ols_param_models", "model/apop_t.c: apop_t_dist_cdf", "apop_model.m4.c: apop_parameter_model"]}
{"id": "C162", "title": "Determinant and inverse", "statement": "apop_matrix_determinant of a square matrix is its determinant; apop_matrix_inverse gives a two-sided inverse, and NULL exactly when there is none; apop_det_and_inv asked for both gives both, and NaN with NULL for a singular matrix; a matrix that is not square gives NULL / NaN with *out NULL. Fails: apop_matrix_determinant of a matrix that is not square writes through NULL; without calc_det the return value is NaN, not the documented zero.", "quantifier": "every matrix of every size", "why_tests_cant": "all sizes and all real entries", "anchors": ["apop_linear_algebra.m4.c: apop_det_and_inv, apop_matrix_inverse, apop_matrix_determinant"]}
{"id": "C163", "title": "The positive definiteness test", "statement": "apop_matrix_is_positive_semidefinite of a symmetric matrix returns 1 exactly for the positive definite ones, 0 for the others, whichever kind is asked for; NULL gives 0; whatever passes has a positive determinant and first element. Fails as documented: singular positive semidefinite matrices (perfectly correlated variables) are always rejected by the default semidefinite test; symmetry is not checked, so a matrix with a negative quadratic form can pass; more rows than columns runs past the matrix.", "quantifier": "every square matrix, both kinds of test", "why_tests_cant": "Sylvester's criterion for all sizes", "anchors": ["apop_stats.m4.c: apop_matrix_is_positive_semidefinite"]}
{"id": "C164", "title": "Conversion to positive semidefinite", "statement": "apop_matrix_to_positive_semidefinite on any square matrix with nonzero trace always returns (no endless loop whatever eigenvectors GSL picks, no failed assert): the matrix is left as it is (returning 0) if it passes C163's test, otherwise replaced by a symmetric positive definite one whose trace is the absolute value of the original's, and the return value is the greatest change of an element over the greatest original element; for symmetric input 0 comes back iff it was positive definite, else something positive; calling again changes nothing. Fails: trace zero \u2192 the assert stops the program; zero diagonal ([[0,1],[1,0]]) \u2192 in exact arithmetic it never ends; it is not the 'closest' (for diag(2,\u22121) a strictly closer one exists, every time).", "quantifier": "every square matrix, every choice of eigenvectors, every run", "why_tests_cant": "an iteration over matrices with a convergence test; nondeterministic eigen decomposition", "anchors": ["apop_stats.m4.c: apop_matrix_to_positive_semidefinite, find_eigens, diagonal_copy, diagonal_size, biggest_elmt", "model/apop_multivariate_normal.c: mvn_constraint"]}
{"id": "C165", "title": "Principal components", "statement": "apop_matrix_pca(data, d) for d \u2264 columns and data not all constant: the data are left with every column less its mean; the columns returned are orthonormal eigenvectors of X'X; each weight is the share of total variation along its component, in nonincreasing order; no unit direction orthogonal to the earlier components has more variation than the next component; no other d orthonormal directions together explain more; weights sum to at most 1, to 1 when d is the number of columns, and in general iff the data have no variation orthogonal to what was returned. Fails: d greater than the number of columns reads a column that is not there; constant data give NaN weights.", "quantifier": "every data matrix, every d, every competing set of directions", "why_tests_cant": "optimality ranges over all directions and subspaces", "anchors": ["apop_linear_algebra.m4.c: apop_matrix_pca"]}
{"id": "C166", "title": "The multivariate gamma function", "statement": "Where every \u0393(a+(1\u2212j)/2), j=1..p is defined, apop_multivariate_gamma returns \u03c0^{p(p\u22121)/4}\u220f\u0393(a+(1\u2212j)/2) and apop_multivariate_lngamma the log of its absolute value; for a > (p\u22121)/2 it is positive; p=1 is \u0393 and each further dimension multiplies by \u03c0^{p/2}\u0393(a\u2212p/2); NaN comes back exactly when \u0393 is undefined for an odd j. Fails as documented: undefined at an even j (a=1/2, p=2) is not noticed, and GSL's error handler stops the program.", "quantifier": "every real a and dimension p", "why_tests_cant": "all reals and all dimensions", "anchors": ["apop_stats.m4.c: apop_multivariate_gamma, apop_multivariate_lngamma"]}
{"id": "C167", "title": "The default proposals and their adaptation", "statement": "After any history of acceptances, rejections and adaptations, the default proposal distribution of a block is Normal around the block's last accepted value with independent components of one and the same positive variance, and its counts of acceptances and rejections are right; adapting widens it exactly if more than the target share of the proposals so far were accepted and narrows it exactly if fewer were, never by as much as one percent down, nor up by more than (1/target \u2212 1) percent; so at any point the next step leaves the likelihood's distribution as it is (C72).", "quantifier": "every history of every length, every number of parameters, every number of periods and target rate above zero", "why_tests_cant": "all histories", "anchors": ["apop_mcmc.m4.c: sigma_adapt, step_to_vector, setup_normal_proposals, one_step"]}
{"id": "C168", "title": "What the chain samples under a constraint", "statement": "In apop_model_metropolis a proposal that fails the constraint (or has no finite log likelihood) is thrown away and another made, so the proposal used has the law of a proposal given that it is let through, and the search for one ends with probability one if there is any chance of it. With symmetric proposals the chain's stationary density on the allowed set is then the likelihood times the chance that a proposal from there is let through. The likelihood itself is not stationary unless that chance is (almost everywhere) the same. In particular with the default Normal proposals and a parameter that must be positive the likelihood is never the stationary distribution. The documentation's claim that values near the constraint will be oversampled is false: they are undersampled, by every likelihood, every proposal width and every cut-off.", "quantifier": "every measurable parameter space, log likelihood, symmetric proposal density and allowed set; for the default proposals every variance and likelihood", "why_tests_cant": "statements about the law of the chain", "anchors": ["apop_mcmc.m4.c: one_step, apop_model_metropolis (documentation)"]}
{"id": "C169", "title": "Updating by weighted draws", "statement": "For a prior that has only draws, apop_update returns a PMF with as many rows as the settings' periods: the first draws after the very first whose likelihood can be evaluated, in order, each weighted by its likelihood; it returns exactly when there have been that many (never, if the likelihood is always NaN). With independent draws from the prior and a likelihood of finite positive mean, with probability one every call returns and the weight given to any measurable set tends to its posterior probability as the number of rows grows.", "quantifier": "every prior, likelihood, number of rows and stream of draws", "why_tests_cant": "an almost sure limit over streams of random draws", "anchors": ["apop_update.m4.c: apop_update"]}
{"id": "C170", "title": "Updating by Markov chain", "statement": "apop_update uses the conjugate table if it lists the pair, else requires the prior's draw size to equal the number of the likelihood's parameters (error 'd'), else runs the chain if the prior has p or log_likelihood, else weights draws, else returns NULL. The product model's log likelihood at \u03b8 is the log of prior density times likelihood, whatever parameters the likelihood held before, so that the chain (no constraint, all parameters together) has the posterior as its stationary distribution. Fails: the prior's constraint is ignored; a likelihood without a constraint method is called through NULL.", "quantifier": "every prior and likelihood, every \u03b8, every dimension and proposal variance", "why_tests_cant": "statement about the law of the chain, for all models", "anchors": ["apop_update.m4.c: product_ll, product_constraint, apop_update"]}
{"id": "C171", "title": "Imputation by maximum likelihood", "statement": "apop_ml_impute(d, m): every evaluation of the search, whatever came before, is of the log likelihood, under the parameters given, of d with its missing elements replaced by the trial values in order (or of m's constraint there, returning the trial values if it fails). Afterwards d has its shape and every element that was not missing, the missing ones hold what the search found, nothing is missing if that was numbers, and m's parameters are those given. Preconditions: d has one page or the constraint never fails, and a constraint that is met leaves the parameters alone.", "quantifier": "every data set of any pages and shapes, model, search history and result", "why_tests_cant": "for every sequence of calls an optimiser may make", "anchors": ["apop_missing_data.m4.c: apop_ml_impute, i_ll, i_constraint", "transform/apop_fix_params.c"]}
{"id": "C172", "title": "Summaries and correlations of data", "statement": "apop_data_summarize gives one row per column, in order, named by the input's column names: mean, square root of the sample variance, that variance, smallest element, a median, largest. With replicate weights mean and variance are those of the repeated data. apop_vector_correlation of two vectors that are not constant is their covariance over the product of their standard deviations, a number in [-1,1], the same in either order, one for a vector with itself, and unchanged by a change of origin and (positive) scale. Fails: the median of an even number of rows is the lower middle one, not the midpoint, and it ignores the weights.", "quantifier": "every data set and weights, every pair of vectors", "why_tests_cant": "real-valued inequalities for every data set", "anchors": ["apop_stats.m4.c: apop_data_summarize, apop_vector_correlation, apop_vector_var_m"]}
{"id": "C173", "title": "Entropy and divergence of models by random draws", "statement": "apop_model_entropy of a Normal is the integral of -ln(p)p, (ln(2\u03c0\u03c3\u00b2)+1)/2. For any other model whose draws have the density p and whose log likelihood is ln p, with probability one the result tends to the integral of -ln(p)p as the number of draws grows. apop_kl_divergence from a model that is not a PMF tends with probability one to the integral of p\u00b7ln(p/q), which is never negative; if the first model draws, with positive probability, what has none under the second, it is infinite from some number of draws on.", "quantifier": "every model with a density on any measurable space, every \u03c3, almost every sequence of draws", "why_tests_cant": "almost sure limits over infinite sequences of random draws", "anchors": ["apop_stats.m4.c: apop_model_entropy, norment, apop_kl_divergence"]}
{"id": "C174", "title": "The models' constraints move parameters into bounds, to the nearest point there", "statement": "The constraint of a model returns zero and leaves the parameters if they are in bounds; otherwise it moves them into bounds and returns the distance moved. Normal/Lognormal: sigma at least 1e-5, mu untouched; Yule/Zipf: at least one plus the margin; Poisson/Exponential: at least the margin; all to the nearest such point whatever was called before. Multinomial/Binomial (any number of bins): no negative element, no share above one; t: sigma at least 0, df at least .9; Bernoulli: p in [.001,.999]; to the nearest such point after any history of that model's own calls and of single-constraint models. Beta/Gamma/Dirichlet: every element below the margin ends no less than it, and if none was strictly between zero and the margin the result is each element raised to the margin; with two parameters all end in bounds. Fails: elements between zero and the margin are moved too far; a Dirichlet of three parameters can be left out of bounds by its own earlier calls; the scratch vector is shared by all models, so an earlier Dirichlet call makes the t's constraint return df 0; a t with sigma 0 is let through.", "quantifier": "all parameter vectors, numbers of parameters, margins, and all histories of earlier constraint calls of the kinds named", "why_tests_cant": "Ranges over real parameter vectors of any length and all earlier call histories (static scratch vector).", "anchors": ["model/apop_normal.c: positive_sigma_constraint", "model/apop_multinomial.c: multinomial_constraint", "model/apop_t.c: apop_t_dist_constraint", "model/apop_bernoulli.c: bernoulli_constraint", "model/apop_yule.c: yule_constraint", "model/apop_zipf.c: zipf_constraint", "model/apop_beta.c, apop_gamma.c, apop_dirichlet.c, apop_poisson.c, apop_exponential.c: constraint methods", "apop_linear_constraint.m4.c: apop_linear_constraint"]}
{"id": "C175", "title": "Raking from the database: the right cells, the right starting table, margins met", "statement": "A contrast given as text, names separated by pipes with any blanks around them, is read as the list of those names. Without an init table, with finitely many observations and a tolerance, enough rounds of raking give one row for each cell that could be nonzero (in every contrast, and in every variable in no contrast, some observation agrees with it, and it is no structural zero) and for no other cell; the weights are nonnegative, are the starting weight times one factor for each contrast depending on its variables only, and match the observations' totals of every contrast up to a fixed multiple of the tolerance. With a nudge and an init table with the rows of the margin table, the starting weights are the init table's totals, with the nudge where they are zero or the cell is absent; without nudge the cells are those of the init table that are no structural zeros. An unknown name (where the possible cells are asked for) or a margin table without rows gives error 'q'. Fails: with a nudge and an init table of its own, possible cells of the margin table not in the init table are not nudged but lost, and cells in the init table only are there twice; if all cells are structural zeros NULL is read.", "quantifier": "all contrasts, tables of observations, init tables, structural zeros, nudges, tolerances, and orders in which the database returns rows", "why_tests_cant": "Ranges over all tables, any number of variables and contrasts, and every row order of the database; convergence is a limit statement.", "anchors": ["apop_rake.m4.c: apop_rake", "apop_rake.m4.c: generate_list_of_contrasts", "apop_rake.m4.c: setup_nonzero_contrast", "apop_rake.m4.c: nudge_zeros", "apop_rake.m4.c: get_var_index", "apop_rake.m4.c: c_loglin"]}
{"id": "C176", "title": "Maps on bare vectors and matrices, their sums, and logs and exponentials of vectors", "statement": "apop_vector_apply and apop_matrix_apply_all leave in each element what the function makes of that element alone; apop_matrix_map and apop_matrix_apply treat each row as the function alone would; apop_matrix_map_all makes a new matrix with the function of each element at its place; whatever the order in which the threads' steps come. The three sums add the values in the order of the elements whatever the schedule, so the result is reproducible with any rounding, and with a 0/1 function such as isnan they count. NULL inputs give no-ops, NULL and zero. apop_vector_log, log10 and exp replace each element, and exp undoes log on positive vectors.", "quantifier": "all vectors and matrices of any size, all user functions that stay within the element or row they are given, and all interleavings of the threads", "why_tests_cant": "All schedules of the threads and all functions and sizes; a test sees one schedule.", "anchors": ["apop_mapply.m4.c: apop_vector_apply", "apop_mapply.m4.c: apop_matrix_map", "apop_mapply.m4.c: apop_matrix_apply", "apop_mapply.m4.c: apop_matrix_map_all", "apop_mapply.m4.c: apop_matrix_apply_all", "apop_mapply.m4.c: apop_vector_map_sum", "apop_mapply.m4.c: apop_matrix_map_sum", "apop_mapply.m4.c: apop_matrix_map_all_sum", "apop_linear_algebra.m4.c: apop_vector_log, apop_vector_log10, apop_vector_exp"]}
{"id": "C177", "title": "The database over a session: what survives a crash or a close, at any point of any history", "statement": "If the program stops after any number of queries to a database in a file, the file holds exactly what was seen after the last query at which no transaction was open, and no other file is touched; closed or crashed and opened again, after any history of opens, closes, queries and crashes, a file holds what was last seen, or what was there when the open transaction began. An import stopped midway outside a transaction leaves the table with a first part of the rows; in a begin/commit wrapper, nothing or everything; a crosstab on its own leaves nothing, an empty table or everything. apop_query gives 0 if all statements were done, else 1 with the ones before the first error done and no others. With no database open a query goes to a new one in memory and touches no file. apop_db_close without vacuum always gives 0. Fails: a crosstab inside a user's transaction commits it, so it isn't all or nothing, and the user's own commit or rollback then are errors; after a failed apop_db_open queries silently succeed on a database in memory; opening again without closing leaks the old connection, which if it had written in a transaction keeps the file locked; close with vacuum in a transaction leaves the database open, and with no database open is undefined.", "quantifier": "all histories of opens, closes, queries (any statements, with errors, transactions) and crash points, all databases and table contents", "why_tests_cant": "Ranges over every history and every crash point.", "anchors": ["apop_db.m4.c: apop_db_open", "apop_db.m4.c: apop_db_close", "apop_db.m4.c: apop_query", "apop_db_sqlite.c: apop_sqlite_db_open", "apop_db.m4.c: apop_data_to_db", "apop_conversions.m4.c: apop_text_to_db", "apop_conversions.m4.c: apop_crosstab_to_db"]}
{"id": "C178", "title": "Text file to table: what the database holds afterwards", "statement": "apop_text_to_db (SQLite): if no table of the name is there, SQLite accepts the definition and the first data line has as many fields as the table has columns (up to 999), the table is created with columns named from the header, the names given, or col_0, col_1, ..., each declared by the first field_params row whose regular expression matches its name, else numeric, plus the table_params; it gets one row for each record in order, empty fields and the NaN string as NULL, short lines filled with NULL, long lines cut, up to the first row a constraint refuses (then the result is -1). With 'a' the rows come after the old ones, with 'd' they replace them, with 'o' it is as if the table hadn't been there, with 'n' nothing is done and the result is -1. Whatever the file and the outcome, no other table or view is touched, and unless 'd' or 'o' is asked no old row is lost. The default name is the file's base name up to the first dot. Fails: with 'd' and 'o' the old rows are lost even if the file can't be opened; row names without a header line (or with field_names) always give -1 and leave an empty table; a name differing in case only gives -1; a regular expression that doesn't compile matches every name; beyond 999 columns lines of another length, or refused, are left out silently; reading standard input the default table name is '-', no SQL name. In a table of more than 999 columns, a field's value is NULL exactly if it is empty or the NaN string, a string literal for itself if it is text without apostrophes, itself (with a zero before a leading point) if it is a finite number.", "quantifier": "all files, options, names, types, constraints, affinities and databases", "why_tests_cant": "Ranges over all databases, files and constraint failures.", "anchors": ["apop_conversions.m4.c: apop_text_to_db", "apop_conversions.m4.c: tab_create_sqlite", "apop_conversions.m4.c: get_field_conditions", "apop_conversions.m4.c: get_field_names", "apop_conversions.m4.c: line_to_insert", "apop_conversions.m4.c: cut_at_dot", "apop_conversions.m4.c: apop_use_sqlite_prepared_statements"]}
{"id": "C179", "title": "Beta by mean and variance, and moments that are the distributions' own", "statement": "apop_beta_from_mean_var: for every mean 0 < m < 1 and variance 0 < v < m(1-m) the returned model's parameters are positive, the Beta distribution with them has mean m and variance v (as integrals), and no other parameters do; other means give error 'r'. The Gamma and Beta estimated from data in one part have, as distributions, the data's mean and variance. The lognormal's estimate from a matrix is the mean and root mean squared deviation of the logs and no parameters are more likely; nothing to estimate from gives error 'd'. lognormal_predict is the mean of the model's draws. Fails: the documented range (0, 1/12) for the variance is neither needed nor enough (parameters of zero or below without an error); lognormal_predict is never installed, apop_predict gives the mode exp(mu - sigma^2), always less than the mean; a vector and a matrix both: undefined.", "quantifier": "all means, variances, data in one part, parameters", "why_tests_cant": "equality of integrals with given numbers for all real parameters; uniqueness over all parameters", "anchors": ["apop_asst.m4.c: apop_beta_from_mean_var", "model/apop_normal.c: lognormal_estimate", "model/apop_normal.c: lognormal_predict", "model/apop_normal.c: lognormal_prep", "model/apop_beta.c: beta_estimate", "model/apop_gamma.c: gamma_est"]}
{"id": "C180", "title": "Drawing from one PMF in many threads", "statement": "Any number of threads draw from one weighted PMF that has its settings group (as after apop_estimate), whatever the scheduler does: no element is read before it is written, no freed memory is used, the cumulative vector is made at most once, every thread that ends has got the row its own uniform number calls for (as if alone), weights that sum to zero give every thread the error return, and once each thread has had a number of turns bounded by threads times (3 rows + 14) all have ended (no deadlock). If the vector has been made before, draws and CDFs may be mixed freely. Fails: with no settings group at first, two threads' additions free each other's block (use after free); the CDF has no critical section, so with the vector not yet made two CDFs, or a CDF beside a draw, read elements not yet written.", "quantifier": "all schedules, numbers of threads, weights, uniform numbers, mixtures of draws and CDFs", "why_tests_cant": "interleavings cannot be enumerated, and a race shows only in some of them", "anchors": ["model/apop_pmf.c: draw", "model/apop_pmf.c: setup_cmf", "model/apop_pmf.c: pmf_cmf", "apop_settings.c: apop_settings_group_alloc", "apop_settings.c: apop_settings_remove_group", "transform/apop_mixture.c: mixture_draw"]}
{"id": "C181", "title": "Critical sections one inside another: no deadlock", "statement": "Any number of threads, each evaluating a likelihood of, drawing from, or running a Markov chain on a model built of closed-form models, mixtures, kernel densities whose kernel contains no kernel density, and models with no draw method: under every schedule at most one thread is inside a section, unless all have ended some thread can go on, and all end once each has had enough turns. Fails: a kernel density whose kernel is a kernel density waits for itself for ever (one thread is enough), so does a Markov chain on a model whose likelihood runs one; a draw from a model without a draw method beside a chain whose likelihood makes such a draw can leave both waiting for one another for ever.", "quantifier": "all schedules, numbers of threads, model trees, sizes of data and chain lengths", "why_tests_cant": "deadlock depends on the interleaving; nesting depth and mixtures of tasks are unbounded", "anchors": ["apop_mcmc.m4.c: apop_model_metropolis", "apop_mcmc.m4.c: apop_model_metropolis_draw", "apop_model.m4.c: apop_draw", "model/apop_kerneld.c: kernel_ll", "model/apop_kerneld.c: kernel_cdf", "transform/apop_mixture.c: mixture_draw", "model/apop_pmf.c: draw", "apop_vtables.c: apop_vtable_add"]}
{"id": "C182", "title": "Threads asking for their random number generators at once", "statement": "Any number of threads call apop_rng_get_thread with any numbers, under any schedule: a thread that has got a generator has the one of its number, seeded with the initial seed plus the number plus one, whoever came first, so different numbers never share one; whenever nobody is inside the critical section the table holds the generators in order. If the largest number has been asked for before the threads start, no freed memory is read and all end. Fails: from nothing, a thread may hold the pointer to the table (read after the section) while another reallocates it, and reads freed memory.", "quantifier": "all schedules, numbers of threads, numbers asked for, seeds", "why_tests_cant": "the use after free shows only in some interleavings and only if realloc moves the block", "anchors": ["apop_asst.m4.c: apop_rng_get_thread_base", "apop_asst.m4.c: apop_model_draws"]}
{"id": "C183", "title": "Copying, using and freeing models with settings is memory safe", "statement": "Whatever sequence of setting up, copying, using and freeing models with MCMC or linear-model settings a program runs (using and freeing only models that are there), nothing the settings point to is used after being freed or freed twice; and once all MCMC settings have been freed, every proposal the library allocated has been, and none that the user allocated. The same (with nothing lost) holds for kernel densities if no copy is used after the density it was copied from has been freed, for constrained models if they are copied only before their first evaluation, and for mixtures, ARMS and loess settings if they are not copied. Those conditions are needed: copying any mixture, any model drawn from by ARMS or any estimated loess model and freeing both frees memory twice; a constrained model copied after an evaluation, and a kernel density whose original is freed, use freed memory. Mixtures, constrained models and copied instruments lose memory; an input distribution handed to apop_lm and the weights of data given to loess are freed under the user's feet.", "quantifier": "all programs (sequences of any length of set-up, copy, use and free, on any number of groups), all numbers of parameter blocks, user-supplied or default parts", "why_tests_cant": "Histories are unbounded and the failures depend on the order of copies, evaluations and frees; a double free or use after free often has no visible effect in a test run.", "anchors": ["apop.m4.h:Apop_settings_copy", "apop_mcmc.m4.c:apop_mcmc_settings_copy", "model/apop_ols.c:apop_lm_settings_free", "model/apop_kerneld.c:apop_kernel_density_settings_copy", "transform/apop_dconstrain.c:apop_dconstrain_settings_free", "transform/apop_mixture.c:apop_mixture_settings_free", "apop_arms.c:apop_arms_settings_copy", "model/apop_loess.c:apop_loess_settings_free"]}
{"id": "C184", "title": "Fisher test: probability of table", "statement": "Whenever apop_test_fisher_exact returns without error, \"probability of table\" is the probability of the table given its margins (product of the factorials of the margins over the factorials of the total and of the cells), multiplied by e^0.000000345254; so it is always too large, by less than 0.0000345255 percent, and above one for a table that is the only one with its margins.", "quantifier": "all tables of counts of any size for which there is no error", "why_tests_cant": "A relative error of 3.5e-7 is within any test's tolerance, and the number of tables is unbounded.", "anchors": ["apop_fexact.c:f2xact", "apop_fexact.c:apop_test_fisher_exact"]}
{"id": "C185", "title": "Fisher test: the p value is the probability of the tables no more probable", "statement": "Whenever apop_test_fisher_exact returns without error, \"p value\" is the sum of the probabilities of the tables with the same margins that are no more probable than the observed one: exactly so if total!/(product of the shorter side's totals!) is at most 2896000, and otherwise up to a factor of e^(0.000000345254 (max(rows, columns)-2)) in the sum and of about the same size in what counts as no more probable. This holds whatever the order in which the hash tables are read, and also for any other valid bounds on the longest and shortest path of a subtable than those of the code.", "quantifier": "all tables of counts of any size for which there is no error, all orders of reading the hash tables, the code's path bounds (and all valid ones)", "why_tests_cant": "The network algorithm merges, prunes and hashes an exponential number of tables; tests compare a few p values.", "anchors": ["apop_fexact.c:f2xact", "apop_fexact.c:f5xact", "apop_fexact.c:f6xact", "apop_fexact.c:f7xact", "apop_fexact.c:f9xact", "apop_fexact.c:f3xact", "apop_fexact.c:f4xact"]}
{"id": "C186", "title": "Fisher test: the work arrays are inside the workspace and disjoint", "statement": "The sixteen work arrays of the exact test lie within its workspace of 200000 ints and do not overlap if and only if those of fixed size take at most 199364 ints, and an even number of them: that is, for tables of up to 13 rows and 13 columns with a total of up to 97000, and in general if the shorter side is odd or (rows+columns+1)(5+2 max) <= 7 max + 800. Otherwise they do overlap: for 2 by 19 tables the last double of one array and the first hash key share memory, for every total; and totals of 100000 never fit (the code notices, and goes on).", "quantifier": "all numbers of rows and columns, all totals", "why_tests_cant": "Whether arrays overlap depends on the parity of sums of sizes; overlapping memory gives no crash.", "anchors": ["apop_fexact.c:iwork", "apop_fexact.c:fexact"]}
{"id": "C187", "title": "Fisher test: small tables", "statement": "For tables of one or two rows and two columns with a total of 1 to 92678, apop_test_fisher_exact returns without error, and its p value is the probability of the tables with the same margins that are no more probable (with a tolerance of 3.5e-7 for what counts as no more probable, and exactly if total!/(product of row totals!) is at most 2896000), without any assumption about the path bounds. For 2 by 3 and 3 by 2 tables, if there is no error, the p value is exact under the same condition on the number of arrangements; for one row it is one.", "quantifier": "all such tables", "why_tests_cant": "There are billions of such tables, and the sum ranges over all tables with the same margins.", "anchors": ["apop_fexact.c:f2xact", "apop_fexact.c:f3xact", "apop_fexact.c:f4xact"]}
{"id": "C188", "title": "Fisher test: what is not a table of counts", "statement": "A table of zeros gives NaN twice and error 'p'; a negative cell and a single column give error 'p'; fractions are cut off, so the result is that of the truncated table. The documentation says that in case of an error the values will be NaN: for a single column they are whatever happened to be in memory. With room for the work arrays, a table of counts with two columns or more gives error 'p', without values, if the totals (each plus one) of its shorter side multiply to more than 2147483647 -- so 60 observations can be too many -- and otherwise the test is carried out.", "quantifier": "all matrices in the range of int", "why_tests_cant": "Uninitialised doubles often look like numbers, and the set of malformed inputs is unbounded.", "anchors": ["apop_fexact.c:apop_test_fisher_exact", "apop_fexact.c:apop_data_to_int_array", "apop_fexact.c:fexact"]}
{"id": "C189", "title": "Where dummy variables are put", "statement": "apop_data_to_dummies' append and remove: with append 'y' or 'e' the dummies become the last columns of the data, each under its own name (missing names before them are blank), vector, weights and text stay, and the data set itself is returned; remove='y' for a numeric column takes exactly that column and its name out (first), if the matrix has at most one column more than rows; append='i' for data without column names puts them right after a column that is not the last. A column that is not there is refused with error 'd' and the data left alone. Fails as documented: append='i' after the last column (so for every one-column matrix) dereferences NULL; on data with column names it leaves as many freed names in the list; it ignores remove; for text columns it does not append at the end; remove on a matrix with more columns than rows plus one overruns a list; numeric columns without a matrix are not refused but NULL is read.", "quantifier": "every data set, dummies, column, option", "why_tests_cant": "all shapes and combinations of options", "anchors": ["apop_regression.m4.c: apop_data_to_dummies", "apop_data.m4.c: apop_data_split, apop_data_stack, apop_data_rm_columns"]}
{"id": "C190", "title": "A data set shown on the screen", "statement": "apop_data_show of any page with at least one row and no more column or text names than columns: exactly row names, vector, matrix and text from left to right and the weights in the last column, each element in its row and each name over its column, nothing else; every line has the same length and every column is the same stretch of all lines, as wide as its longest cell and a blank, cells at the right end; all pages in order with an empty line between; nothing outside the table is touched. Not so: weights always have an empty column before them; extra column names are put on top of the text.", "quantifier": "every data set, delimiter and format of numbers", "why_tests_cant": "all shapes and widths", "anchors": ["apop_output.m4.c: apop_data_show, white_pad"]}
{"id": "C191", "title": "A regression's results carry the user's names", "statement": "Estimating apop_ols labels every result with the data set's names: for data without a vector the first column's name becomes the dependent variable's name (title 'Regression of ...', vector name of the data) and the affine column is called \"1\"; for data with a named vector the vector's and columns' names are used unchanged. Parameters (rows), covariance (rows and columns) and the table of tests (rows) are labelled with the regressors in order, so a coefficient is found by its name; in <Predicted>, 'predicted' and 'residual' are columns 1 and 2. Exceptions proved as findings: the documented column name 'observed' is not found once the data has any column name; an empty first column name is overrun; a vector without a name leaves the parameters unnamed.", "quantifier": "all data sets' names (any number of columns, duplicate names, stale hashes), with or without vector, all settings switches for which the estimation returns", "why_tests_cant": "Names, their number and their collisions range over unbounded sets and all settings combinations; tests look at one example data set.", "anchors": ["model/apop_ols.c:prep_names", "model/apop_ols.c:ols_shuffle", "model/apop_ols.c:apop_estimate_OLS", "apop_regression.m4.c:apop_estimate_parameter_tests"]}
{"id": "C192", "title": "Which auxiliary results a regression returns", "statement": "With default settings every accepted data set yields a covariance page, tests, <Predicted> page and R-squared, all filled in. In general the estimation ends properly exactly when the parts-wanted group (if any) has a 'y' or is all zero, or (without one) the lm switches are not 'covariance without expected values'; then <Predicted>/R-squared and covariance/tests are present exactly when switched on, and never left unwritten. Findings: the documented 'turn all off' default parts-wanted group makes the tests read unwritten memory; 'covariance only' still produces predicted values; want_expected_value='n' with the covariance dereferences NULL.", "quantifier": "all values of the switches in both settings groups, all names, data with or without a vector", "why_tests_cant": "Every combination of character-valued switches; the failing ones read uninitialised memory that usually looks fine in a test.", "anchors": ["model/apop_ols.c:xpxinvxpy", "model/apop_ols.c:apop_estimate_OLS", "apop.m4.h:apop_parts_wanted_settings", "apop_regression.m4.c:apop_estimate_coefficient_of_determination"]}
{"id": "C193", "title": "The bound on the longest path in Fisher's exact test is valid", "statement": "In apop_test_fisher_exact, whenever the computation of the longest remaining path (f3xact) returns a number, no table with the remaining margins has a longer path: minus the number is at most the sum of the logs of the factorials of the cells of every table with these margins. So no set of tables is ever counted as settled although one of them is more probable than the observed table. This holds even where the code reads before its array of log factorials (C194), whatever is read there.", "quantifier": "all sorted row and column totals, of any number and size, all tables with these margins, all values read before the array", "why_tests_cant": "the bound comes from a heuristic test and from dynamic programming over a restricted range of cells; that the range always contains a most probable table holds for all margins only by an exchange argument", "anchors": ["apop_fexact.c: f3xact, f10act"]}
{"id": "C194", "title": "f3xact stays within its arrays", "statement": "The computation of the longest path reads the array of log factorials only within its bounds. It does not: for row totals 1, 9, 10, 10 and column totals 1 (20 times) and 10, as occur for a 4 by 22 table with a total of 31, entry -1 is read, before the start of the array.", "quantifier": "all margins", "why_tests_cant": "the value read is usually harmless, so tests do not show it", "anchors": ["apop_fexact.c: f3xact"]}
{"id": "C195", "title": "The bound on the shortest path in Fisher's exact test is valid, and is found", "statement": "In apop_test_fisher_exact, the computation of the shortest remaining path (f4xact) always returns, reads its array of log factorials only within its bounds, and returns a valid bound: no table with the remaining margins has a shorter path. For remaining tables larger than 2 by 2 the number is, with M the largest sum of the logs of the factorials of the cells of such a table and D the sum for the column totals, -D if D <= 2 M + tolerance and -M otherwise. For 2 by 2 it is only a bound: for totals 1, 2 and 1, 2 it is twice log 2 where the shortest path has log 2.", "quantifier": "all sorted row and column totals, of any number and size, all tables with these margins", "why_tests_cant": "the search follows only cells of one row or column, skips the smallest total and equal totals, and fills one cell as far as possible at each step; that a least probable table is always among those it visits holds for all margins only by an exchange argument", "anchors": ["apop_fexact.c: f4xact, f8xact, f11act"]}
{"id": "C196", "title": "The sort inside Fisher's exact test sorts, up to 3070 categories", "statement": "The quicksort with ten pending segments which apop_test_fisher_exact uses for the margins leaves, for every vector of at most 3070 integers, the same integers in ascending order; it never reads or writes outside the vector, needs at most 2n+2 segments and never reports its 'This should never occur' error. The bound is exact: some vector of 3071 elements makes it report the error and return an unsorted vector.", "quantifier": "every integer vector (with repeats) of length at most 3070; for the refutation one vector of 3071", "why_tests_cant": "The depth of the pending-segment stack depends on the order of the input, and a sort must be right for all orders of all lengths; tests sample a few.", "anchors": ["apop_fexact.c: isort"]}
{"id": "C197", "title": "Raking uses the right list of variables", "statement": "apop_rake without a var_list: the variables are the columns of the margin table other than the count columns, in order, and the queries' field list is these names joined by commas, for every table with one to six such columns. With a var_list, it is the list. Precondition: no name has a percent sign (names are used as format strings). (Refuted for every table with more than six such columns: the seventh and later variables get a blank name, so every query is malformed.)", "quantifier": "every list of column names, every choice of count columns, every user list", "why_tests_cant": "The list is moved inside the answer to a PRAGMA query, which has six columns whatever the table; tests use tables with few columns.", "anchors": ["apop_rake.m4.c: get_var_list, apop_rake", "apop_data.m4.c: apop_text_set, apop_text_alloc", "apop_asst.m4.c: apop_text_paste"]}
{"id": "C198", "title": "Parameter distributions by repeated estimation hold every run's parameters", "statement": "apop_parameter_model without data, for a model with no parameter model of its own: the data of the PMF it returns are the parameters of every run, in order, as packed numbers (with index k: the k-th number of every run), whenever the parameters are a vector, with any info pages, or have a two by two matrix. (Refuted for parameters with any other matrix: nothing of the runs gets into the PMF; its data are uninitialised memory.)", "quantifier": "every number of runs and parameters, every outcome of the estimations, every index in range", "why_tests_cant": "Depends on the shape of the parameters: tests use vectors or 2 by 2 matrices only, where the wrong count of columns happens to be right.", "anchors": ["apop_model.m4.c: apop_parameter_model", "apop_conversions.m4.c: apop_data_pack"]}
{"id": "C199", "title": "Bernoulli draws and CDF; the variances reported by the Bernoulli and the Normal", "statement": "apop_bernoulli with 0 <= p <= 1: a draw is one with probability p and else zero; the CDF at any x is the probability that a draw is at most x. For n independent observations of zero and one its estimate has variance p(1-p)/n; for n independent observations with variance v, the Normal's estimated mean has variance v/n, and the <Covariance> page of a Normal's prediction (its mean) holds, given sigma^2 = v, the square root of that. (Refuted: the Bernoulli's <Covariance> page is the variance of the estimate -- it is n times it, p(1-p); the Normal's <Covariance> page is -- it holds mean/n, right only if mean and variance are equal, and negative for a negative mean; the prediction's <Covariance> is the variance of the mean.)", "quantifier": "every p, every x, every sample size, every law of the observations with a second moment", "why_tests_cant": "Statements about the law of estimates over all samples; the values for one sample look plausible.", "anchors": ["model/apop_bernoulli.c: bernoulli_rng, bernoulli_cdf, bernoulli_estimate", "model/apop_normal.c: normal_estimate, normal_predict"]}
{"id": "C200", "title": "The estimated t distribution has the data's mean and variance", "statement": "apop_estimate of apop_t_distribution on more than three numbers, not all equal, in a vector or in a matrix: df is their count less one, the scale is positive, the density used by the log likelihood integrates to one, and the distribution with it has the mean and the variance of the data (over n-1 for a vector, over n for a matrix). (Refuted: with three numbers the scale is zero and with two it is NaN; with a vector and a matrix both, the distance between the two parts is not counted in the variance.)", "quantifier": "every data set of more than three numbers in one part", "why_tests_cant": "An identity between integrals and all data sets.", "anchors": ["model/apop_t.c: apop_t_estimate, apop_tdist_llike"]}
{"id": "C201", "title": "Estimating an estimated model again", "statement": "apop_estimate of a stock distribution (normal, lognormal, exponential, Bernoulli, Poisson, beta, uniform, t) as shipped sets the parameters to the estimates, each found under its name, and the info page's \"log likelihood\" is that of the data at them. If the model given to apop_estimate is the result of earlier estimates, in any history and on any data, the parameters of all of these but the t are the estimates for the last data set. (Refuted: the info page's \"log likelihood\" stays that of the first estimate for ever, since each estimate appends another of that name; the t distribution keeps the parameters of the first data set for ever, the later ones being appended behind them, where nothing reads them.)", "quantifier": "every stock distribution of the two kinds (any names, estimator and likelihood), every history of data sets", "why_tests_cant": "A statement about all histories; tests estimate from the shipped model once.", "anchors": ["apop_model.m4.c: apop_estimate, apop_model_copy, apop_model_clear", "apop_data.m4.c: apop_data_add_named_elmt", "model/apop_t.c: apop_t_estimate", "model/apop_normal.c: normal_estimate", "model/apop_exponential.c: exponential_estimate"]}
{"id": "C202", "title": "Threads drawing at once from a model without a draw method", "statement": "Any number of threads call apop_draw on one multivariate model without a draw method and without an apop_mcmc group, under any schedule: at most one chain is set up by apop_draw (exactly one once a thread has drawn), all threads draw from the same chain, and all end, within nine steps a thread. If a draw has been made before the threads start, or no thread reads the model's settings between the write of the draw method and the copy of the settings, every draw is from the chain over the data. (Refuted without that: a thread that comes in between finds the method but no settings and runs a chain over the model's parameters on the model itself; it and all later draws then return parameters for data.)", "quantifier": "every number of threads, every schedule", "why_tests_cant": "The window is a few instructions wide; it needs one of many schedules.", "anchors": ["apop_model.m4.c: apop_draw", "apop_mcmc.m4.c: apop_model_metropolis_draw, apop_model_metropolis"]}
{"id": "C203", "title": "The covariance pages of Poisson and Bernoulli estimates", "statement": "apop_estimate of a Poisson ends whatever its settings, although the bootstrap it runs calls apop_estimate of the same model: with no apop_parts_wanted group, or one with covariance='y', the estimate method runs once for the data and once for each of the bootstrap's iterations; the result has the data's mean as parameter, a page <Covariance> of the covariance of the samples' means, the other pages, and the model's settings as they were before. With covariance='n' it runs once and no page is added. The Bernoulli's page holds p(1-p). (Refuted: if the model had been estimated before, apop_data_get_page finds the page of the first estimate beside the parameter of the second.)", "quantifier": "all data, random streams, iterations, settings and earlier pages", "why_tests_cant": "Recursion through settings: ending must hold for every setting of the switch, and each combination leaves the settings unchanged.", "anchors": ["model/apop_poisson.c: poisson_estimate", "model/apop_bernoulli.c: bernoulli_estimate", "apop_bootstrap.m4.c: apop_bootstrap_cov"]}
{"id": "C204", "title": "Setting up mixtures and drawing from them", "statement": "apop_model_mixture of one or more models has equal weights that sum to one and the models' common dsize, if they share one. A draw uses one uniform number to choose a component, each with odds equal to its share of the weights (a component without weight is never chosen by a number above zero), and is then that component's own draw; any number of draws is the sequence of such draws. Weights that sum to zero give the error return each time. (Refuted: once a draw has been made, new weights change no draw; and with unlike dsizes the prep sets the first model's, against the documentation, so a draw writes more numbers than dsize.)", "quantifier": "all lists of models, weights and generators, any number of draws", "why_tests_cant": "Exact odds over all uniform numbers and weights, and any history of draws.", "anchors": ["transform/apop_mixture.c: apop_model_mixture_base, mixture_prep, mixture_draw", "model/apop_pmf.c: draw, setup_cmf"]}
{"id": "C205", "title": "Threads registering and looking up functions in one table", "statement": "Any number of threads call apop_vtable_add or apop_vtable_get on a table that is there, under any schedule: if all of them register, or all look up, or no thread is between the unlock and the return of a lookup while another's registration has moved the elements and not yet noted it, then nothing freed or unwritten is read, the table is the elements there before followed by those registered, no key twice (the first registration stays), every finished registration's key is there, and a lookup of a key registered before the threads began returns its function. All end, within six steps a thread; no deadlock. (Refuted without that: apop_vtable_get reads the element after giving up the lock, and may read a block that another thread's registration under another key has freed.)", "quantifier": "every number of threads, calls, table contents and schedule", "why_tests_cant": "The window is a few instructions wide; it needs one of many schedules.", "anchors": ["apop_vtables.c: apop_vtable_add, apop_vtable_get"]}
{"id": "C206", "title": "A crosstab written to the database and read back", "statement": "For every data set whose row names are distinct and whose column and text names are distinct, names and texts without quotes, entries finite or NaN: after apop_crosstab_to_db, apop_db_to_crosstab on that table returns a data set with exactly these row and column names, in any order the database sorts them, no error, and under each pair of names the entry written there: numbers of at most six digits times a power of ten exactly (so tables of counts below a million exactly), others to one part in 200000, NaN as the NaN text reads, texts as atof reads them; apop_opts.db_name_column is as before. (Refuted without the conditions: seven digits are cut, infinite entries are dropped silently and read as 0, a name with a quote loses its rows or a quote, of two rows of one name one is left, with a NaN text such as '.' NaN reads as 0; a table without records leaves db_name_column NULL; a failing data query gives no error.)", "quantifier": "every matrix, text grid, name list, order of the distinct names, and every answer of the three queries", "why_tests_cant": "It is a round trip over all matrices and names; tests try a few with small numbers.", "anchors": ["apop_conversions.m4.c: apop_crosstab_to_db", "apop_conversions.m4.c: apop_db_to_crosstab"]}
{"id": "C207", "title": "Fixed-parameter models and their copies share one base model", "statement": "In any history of apop_model_fix_params, apop_model_copy, setting parameters, evaluations, apop_model_fix_params_get_base and looks at base models, on any number of models, in which no model is fixed twice and parameters are set before use: behaviour is defined; each evaluation of each fixed-parameter model or copy is at the parameters given with the NaNs replaced in order by its own parameters, whatever other models on the same base did before; and a base model holds the parameters given, or these with the NaNs replaced by the parameters of the model evaluated or asked for last. With no NaN the result is a plain copy. (Refuted: two results of get_base kept apart are one model with the second's parameters; fixing a model again after an evaluation finds no free parameters and returns a plain copy; of two fixed models on one base made at different times one changes what the other fixed.)", "quantifier": "every number of models, parameter pages and shapes, and every history of calls", "why_tests_cant": "Sharing shows only in histories with several models on one base, in certain orders.", "anchors": ["transform/apop_fix_params.c: apop_model_fix_params, apop_model_fix_params_get_base, fix_params_ll, fix_params_draw"]}
{"id": "C208", "title": "The first calls of apop_update from several threads", "statement": "Any number of threads call apop_update, under any schedule: the table of conjugate pairs is what the user registered followed by the library's pairs, none twice; a call that did the registrations itself finds its conjugate pair; and if at some moment a call has been made and none is under way, all pairs are there and every later call with a conjugate pair, under any schedule, finds it. All calls get past the lookup, within eight steps each. (Refuted for calls during the first one: while one thread registers, another's call finds no conjugate pair and goes on to a Markov chain, so the posterior's form depends on the schedule.)", "quantifier": "every number of threads, every pair each looks up, every prior content of the table, every schedule", "why_tests_cant": "It needs a second thread within the few microseconds of the first call.", "anchors": ["apop_update.m4.c: apop_update", "apop_vtables.c: apop_vtable_add, apop_vtable_get"]}
{"id": "C209", "title": "Data of a thousand columns to a table", "statement": "apop_data_to_db (SQLite) with 1000 columns or more writes SQL text: for a data set whose parts have the same number of rows, with no missing row name and strings without apostrophes, one insert statement is run for each row, in order; cut at its commas outside quotes it has exactly the values of the row, as many as the created table has columns, in the order name, vector, matrix, text, weight: NULL for NaN, quoted inf and -inf, %g of other numbers, string literals of the texts, '' for missing ones. The result is 0. (Refuted: numbers are kept -- six digits are; missing texts are NULL as with fewer columns; a missing row name is undefined behaviour; failures of the database are reported -- the result is 0 whatever happens.)", "quantifier": "every data set with parts of equal length, every printed form of numbers without commas and quotes, every strtod, every database", "why_tests_cant": "Tests have few columns, so that this path, with its own text generation, is never run; the claims are about all values.", "anchors": ["apop_db.m4.c: apop_data_to_db, add_a_number, qxprintf", "apop_conversions.m4.c: prep_string_for_sqlite, apop_use_sqlite_prepared_statements"]}
{"id": "C210", "title": "The constraint of a mixture", "statement": "Checking the constraint of an apop_mixture whose components all have parameters and constraints, one weight each: if every component's constraint is met, the components' parameters are untouched, and the weights and the penalty are those of the linear constraint on the weights (or, after an EM step, the weights it found, at a penalty of the distance to them); if some component objects, the penalties are added, and the parameter vector afterwards is exactly as stated: the parameters the components were moved to, from the front of the vector on, over the weights. (Refuted: after the constraint has moved the parameters it is met -- a last component with no more parameters than there are components is left with the values it objects to and objects forever; a component without a constraint is a call of a null pointer.)", "quantifier": "every number of components, sizes, parameters, weights, component constraints, linear constraint and distance; for the refutation any number of calls", "why_tests_cant": "The tests' mixtures never leave the components' constraints; the claims are about all component models and parameters.", "anchors": ["transform/apop_mixture.c: mixture_constraint, unpack, mixture_prep"]}
{"id": "C211", "title": "Names of mapped data sets", "statement": "apop_map into a new set, over a set with names: whatever the function and the schedule, the new set's names are the vector's name and the row names (for part 'v', or if there is only a vector), the row and column names (part 'm'), all lists and the vector's name (part 'a', functions not on row sets), the row names (part 'r' and functions on row sets). For part 'c' it has none: the call that should make column names row names has its arguments the wrong way round.", "quantifier": "every data set with names, function, part and schedule", "why_tests_cant": "Tests look at a few results' numbers; the claims are about all parts, functions and schedules.", "anchors": ["apop_mapply.m4.c: apop_map", "apop_name.m4.c: apop_name_stack, apop_name_copy"]}
{"id": "C212", "title": "Prediction and the filling of gaps by apop_predict", "statement": "apop_predict(d, m) completes d, or, if d is NULL, one row of m.dsize elements all to be found: with a prediction method for m it returns what that returns on the set; without one, a set with no NaN on its first page comes back as it is, and otherwise the set comes back with its shape and every number it had, all NaNs, on all pages and in order, replaced by what the search of apop_ml_impute found, m's parameters as they were. Preconditions: a positive dsize if d is NULL; those of C171. (Refuted without: with d NULL and dsize 0 or -1 a matrix that is not there is written to; a set whose NaNs are all on later pages comes back unfilled.)", "quantifier": "all sets of any number of pages and sizes, all models, methods, parameters, searches (any sequence of evaluations of any length) and search results", "why_tests_cant": "which sets are filled, and that nothing else of them changes, must hold for every pattern of missing elements and every path of the search", "anchors": ["apop_model.m4.c: apop_predict, disnan", "apop_missing_data.m4.c: apop_ml_impute"]}
{"id": "C213", "title": "The PMF that apop_model_to_pmf makes of a model's draws", "statement": "apop_model_to_pmf(m, binspec, draws, bin_count): the PMF's data has one row for each draw, in order, holding the bin of that draw. After apop_data_pmf_compress on that data each bin holding a draw is there once, apop_p of any point is the portion of the draws in its bin, of a set the product over its rows, and the probabilities of the bins sum to one. (Refuted: the documented weights, normalised to sum to one, are not there; as returned, uncompressed, every bin with a draw has the probability of one draw, however many it holds.)", "quantifier": "all models (any sequence of draws of any length but none), all ways to put rows into bins, all points and sets asked for", "why_tests_cant": "the probabilities must be the portions for every set of draws and every choice of bins; a test sees single random samples", "anchors": ["apop_hist.m4.c: apop_model_to_pmf, apop_data_to_bins", "model/apop_pmf.c: estim, pmf_p, apop_data_pmf_compress"]}
{"id": "C214", "title": "CDFs and draws of the exponential, the uniform and the binomial, draws of the beta", "statement": "In exact arithmetic, at the data set's first element x (top of the vector or (0,0) of the matrix): apop_cdf of apop_exponential is the probability that apop_draw from it gives at most x and the mass up to x of the density its log likelihood uses, and is from zero to below one; apop_cdf of apop_uniform is the probability that a draw is at most x and is from zero to one, and every draw is from the minimum to below the maximum; apop_cdf of apop_binomial at an x from zero to below 2^32 is the sum of the odds of 0, 1, ..., x hits. The draws of apop_beta are the GSL's beta draws above zero and at most 1 - 2^-52, all of those, in order. (Refuted: from just below zero on, the binomial's CDF is the odds of zero hits, and from -1 down the conversion of x is undefined; with a vector and a matrix apop_beta's CDF is taken at the matrix's element, the others' at the vector's; a draw from apop_beta for which the GSL gives no such number, as with NaN parameters, never returns.)", "quantifier": "all data sets with a first element, all positive means, all minima below maxima, all whole numbers of trials and all hit probabilities, all streams of the GSL's beta draws", "why_tests_cant": "the CDF must match the draws' distribution at every point and for every parameter; a test compares finitely many points against random samples", "anchors": ["model/apop_exponential.c: expo_cdf, exponential_rng", "model/apop_uniform.c: unif_cdf, uniform_rng", "model/apop_multinomial.c: binomial_cdf", "model/apop_beta.c: beta_cdf, beta_rng"]}
{"id": "C215", "title": "The memory of name lists", "statement": "In any history of apop_name_alloc, apop_name_add (of any type, of strings that are not the list's own), apop_name_stack (also of a list onto itself, but for the vector's name), apop_name_copy and apop_name_free on any number of name lists, wherever realloc puts the blocks: no block that is freed is used or freed again, no two lists share a block, and the blocks in use are exactly as many as the lists there need (one for the list, one each for the title and the vector's name, and for k > 0 names of rows, texts or columns k + 2), and one more for each list with a title that was freed. So if nothing was added as a title or copied, freeing every list leaves nothing. (Refuted: stacking the vector's name of a list onto the list itself reads a block that is freed or copies a string onto itself; apop_name_free frees all memory the structure uses: the title stays, and a copy always has one, that of a list without one being \"(null)\".)", "quantifier": "all histories of any length over any number of name lists, all choices of moving or keeping blocks by realloc", "why_tests_cant": "double frees and leaks depend on the order of calls and on the allocator's choices; a test runs a few orders with one allocator", "anchors": ["apop_name.m4.c: apop_name_alloc, apop_name_add, apop_name_stack, apop_name_copy, apop_name_free"]}
