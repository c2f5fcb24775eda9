# Design

Formal model of b-k/apophenia (C source in /repo, read as text only) in Lean 4.
The library is a thin layer of *logic* over GSL, SQLite and libc: named, multi-page data sets
(`apop_data`), list/registry data structures, a text parser, sorting and reshaping, model
transformations. The logic is what is modelled; the numerical libraries are parameters.

## Conventions

* C strings are `CStr = List UInt8` (bytes up to, and excluding, the terminating NUL). `NULL` is `none`.
* `unsigned long` hashes are `UInt64` (wrapping), `char` is signed as on the target (x86-64).
* A function that mutates through a pointer returns the new value. Pointer *aliasing* that matters
  (`apop_name_stack(n, n, ..)`, `->more` chains, views) is modelled explicitly.
* Undefined behaviour is an outcome: `Res α = ok a | ub`. A theorem "never UB" says the outcome is `ok`.
* Potentially infinite loops/recursions take fuel; termination is "some fuel suffices" and
  divergence "no fuel suffices".
* Numeric cells are a type parameter wherever the code only moves them; where the code does arithmetic
  the model uses `Int`/`Nat`/`Rat` or an arbitrary field/ordered type, never floats. Rounding is not modelled.
* External calls (gsl_sort_vector_index, regexec, callback functions, the SQL engine) are function
  parameters with the assumed behaviour as a hypothesis, listed in "Trusted base".
* memory exhaustion (malloc == NULL) is not modelled.

Layout: `lean/Verif/<Area>/Model.lean` (definitions; each cites file:lines), `Lemmas.lean` (helpers),
`Props.lean` (small specification, property theorems, and beside each a non-vacuity `example`).

## Plan per property

| id | modelled | how proved |
|----|----------|-----------|
| C01 | apop_name_add on a record of lists + hash lists | induction over the op list against a filter specification |
| C02 | apop_name_find incl. djb2 hash in UInt64, hash lists as separate memory | case analysis of the two passes; hash collisions allowed |
| C03 | apop_name_stack (aliased and not), apop_name_copy | loop invariant; NULL title is UB (finding) |
| C04 | apop_data_copy over page chains | structural induction on pages |
| C05 | heap of pages, more pointers, fuelled free/copy | terminating chains by induction; divergence on 2-cycles (finding) |
| C06 | varargs dispatcher of alloc/calloc | case split on all integer triples |
| C07 | flat-memory realloc loops | loop invariants on the block, UB for underflow (finding) |
| C08 | vector realloc | direct |
| C09 | text_alloc with uninitialised/freed cells as states | invariants over the branches |
| C10 | text_set | direct |
| C11 | data_set/get/ptr incl. name resolution | get-set laws; return code finding |
| C12 | data_stack | rows/columns as lists of lists |
| C13 | data_split, stack . split | as above, plus OOB finding |
| C14 | rm_rows | loop invariant = filter; ragged finding |
| C15 | rm_columns, prune_columns | as above |
| C16 | transpose | involution; stale-hash finding |
| C17 | add_page/get_page/rm_page | list of titled pages |
| C18 | rearrange's cycle-leader loop | invariant over visited cycles, termination measure |
| C19 | get_sort_order, sort, recursive tie blocks | single-column proved; multi-column without row names; refutations |
| C20 | same | refutation by witness |
| C21 | pack, unpack, sizecount on page lists | induction; info page refutation |
| C22 | rank_compress, rank_expand | counting |
| C23 | listwise_delete = mark + rm_rows | corollary of C14 |
| C24 | settings list with hash keys | refinement to a map under hash-injectivity; collision refutation |
| C25 | vtable arrays with capacity | refinement to a map, OOB read refutation |
| C26 | text_paste loop | induction; prune refutation |
| C27 | harmonic memo tables | invariant over all call histories |
| C28 | regex driver over an abstract matcher | fuel; divergence on empty match |
| C29 | per-thread RNG table | invariant over histories |
| C30 | parse_a_line state machine | round-trip by induction on fields |
| C31 | same with explicit allocation sizes | invariant |
| C32 | get_next buffer, EOF flag | refutations; positive part for well-ended files |
| C33 | text_to_db driver | refutation + partial |
| C34 | parse_a_fixed_line | induction |
| C35 | prep_string_for_sqlite + SQL literal reader | roundtrip under no-both-quotes; refutation |
| C36 | fill_base | index arithmetic |
| C37 | db_to_crosstab, find_cat_index | induction on records |
| C38 | buffer arithmetic | refuted for every size |
| C39 | vector_to_matrix | direct |
| C40 | data_memcpy | refutation for text, partial |
| C41 | views | index arithmetic |
| C42 | error macro | refutation |
| C43 | add_named_elmt | history induction |
| C44 | settings array incl. 100 byte stored names | refinement to the map of C24; refutation for long names |
| C45 | Parse/Model.lean: parse_a_line, get_field_names, the body of apop_text_to_data with cells that were never written | Parse/DataFile.lean: simulation of the reader by lists, induction over the lines; refutations for short, long, unterminated lines |
| C46 | Par/Loop.lean: parallel loops as interleavings of programs on disjoint cells; Map/Model.lean: apop_map, its allocation, loops and names | schedule independence of loops (every schedule = each iteration alone), then induction over rows or columns |
| C47 | Map/Model.lean | proved for vectors; for matrices the index is the column or the row depending on the shape (proved), so not the position: refutation |
| C48 | Map/Model.lean: forLoop, rowLoop, functions as programs on the cells of their row | schedule independence; in place column map with more columns than rows writes out of bounds: refutation |
| C49 | Map/Model.lean: mapSum | from C46 and C48; refutation for a set with a vector only and a vector function |
| C50 | Asst/Draws.lean: generators as states, apop_draw as a function of the state, rows drawn in any order on any threads | induction over the schedule |
| C51 | the loops over a field; a non-finite result is `none` | induction over the loops (`Stats/Moments`) |
| C52 | the weighted loops and correction factors | induction, field algebra (`Stats/Variance`) |
| C53 | running averages, weighted loops | loop invariant for the running average (`Stats/Variance`) |
| C54 | the estimators as in C52, C53; samples as lists, expectation as an iterated weighted sum | induction on n for power sums (`Stats/Unbiased`) |
| C55 | copy, sort, index computation, rounding | sortedness and counting (`Stats/Percentiles`) |
| C56 | as C52, C53 | the code's value is computed for every such input; it is refuted that this is the documented one (`Stats/Variance`) |
| C57 | all metrics over the reals, the static zero vector | Minkowski inequality; invariant of the static vector over call histories (`Stats/Distance`) |
| C58 | as C53 | refuted: a fair coin with n = 2 (`Stats/Unbiased`) |
| C59 | every branch over the reals (Stats/Normalize) | algebra on sums and on the minimum and maximum loop |
| C60 | covariance cells by the pairwise loop, correlation by its two scalings (Stats/CovMatrix) | quadratic form as a weighted sum of squares; Cauchy-Schwarz |
| C61 | the function and its loop over the reals (Stats/Entropy) | induction over the loop; log x <= x-1 |
| C62 | are_equal part by part, the double loop with its early stop (Pmf/Compress) | inner-loop invariant; induction over rows not cut |
| C63 | setup_cmf and the binary search step by step with out-of-bounds reads as UB (Pmf/Draw) | search invariant with a decreasing interval |
| C64 | the truncation u*(n-1) (Pmf/Draw) | refuted: the last row is never drawn; the others are equiprobable |
| C65 | find_in_data, pmf_p (Pmf/Prob) | induction over the rows, with C62 |
| C66 | pmf_cmf (Pmf/Prob) | refuted: cumulative sums are summed again, so the result can exceed one; without weights the point's own mass is left out |
| C67 | the PMF branch, with infinities and NaN (Pmf/KL) | induction over the loop; Gibbs' inequality |
| C68 | init, copy, first use, free with the shared counter (Pmf/Cache) | reference-count invariant over histories |
| C69 | estimate copies the cached cumulative mass (Pmf/Cache) | refuted: after a draw the cache is stale and may be read past its end; holds for a model never drawn from |
| C70 | one_step, main_mcmc_loop, allocation of the output; likelihood, constraint, proposals and uniforms arbitrary | induction over the periods (loop_spec) with an inductive specification of chains |
| C71 | truncation of periods*burnin and periods*(1-burnin) over the reals | floor arithmetic and induction over the periods |
| C72 | the accept rule under a uniform on (0,1); chain on finitely many states and on any measurable space with any symmetric proposal density, by blocks, without adaptation or constraint (C167, C168 add those) | Lebesgue measure of the accepting uniforms; detailed balance; Tonelli |
| C73 | set_block_count_and_block_starts with the array writes; pack as in C21 | induction over the parts; composition with C21_pack; info pages refuted with a witness |
| C74 | Dist/LogLik.lean: each log_likelihood over the reals; densities are Mathlib's where it has them | proved for all data; outside the support refuted by witnesses |
| C75 | Dist/Score.lean: each score function; gsl_sf_psi as the derivative of the log of Gamma | HasDerivAt proofs, component by component |
| C76 | Dist/Estimate.lean: the estimate functions | log t ≤ t - 1 and completion of squares, for all rivals; counterexamples for the failing arrangements |
| C77 | Dist/Update.lean: the five functions with and without data | Bayes relation with an explicit constant; counterexamples for wide data |
| C78 | Dist/Moments.lean: the two functions, with beta's integer quotients | algebra over the mean and variance of C52 and C53 |
| C79 | Transform/FixParams.lean: the list of NaN places built by find_nans, unpack and pack, over pages with vector and matrix | the places enumerate the NaN cells in packing order (induction over pages); an agreement-off-the-gaps invariant over histories |
| C80 | Transform/Dconstrain.lean: the cache test, log likelihood, rejection loop and Monte Carlo share | invariant on the cache over histories, using that the Euclidean distance of C57 is zero only at equality; integral of an indicator; induction on the number of draws and a geometric limit |
| C81 | Transform/Mixture.lean: the odds, weight step, log likelihood, CDF and the (un)packing of component parameters | real algebra over lists and finite sums; induction over the components |
| C82 | Transform/Cross.lean: a heap of page links, the seek loop, cut and repaste, a tree of models, buffers for draws | induction on the page list for the cut (a frame lemma for distinct pages) and on the tree; induction on the model list for the sizes |
| C83 | the comparisons, the dropping loops over arrays with `ub` outside, qsort as any sorting function | Induction over the loop; a strictly increasing list with given elements is unique. |
| C84 | dummies_and_factors_core with bsearch, both callers' loops | Correctness of binary search by strong induction, then induction over rows. |
| C85 | apop_dot with GSL's gemm, gemv, ddot by definition | Case analysis; matrix algebra of Mathlib. |
| C86 | apop_estimate_OLS over the reals with exact inverse and square root | Normal equations and Pythagoras in Mathlib's matrices. |
| C87 | the function, on the OLS page | Orthogonality from C86. |
| C88 | all of apop_linear_constraint.m4.c over the reals, with the static scratch vector as state | projection onto a half-space by completing the square; the default constraint by an invariant of the scratch vector over all reachable states |
| C89 | apop_jackknife_cov, with the estimation a parameter and the covariance of C60 | the subset after turn t is the data without row t, by induction; algebra of pseudovalues |
| C90 | the loop of apop_bootstrap_cov with the estimation and the random numbers as parameters | an invariant over draws; termination by the count of good and bad draws |
| C91 | c_loglin and what it calls, over a linear order of values and real weights; the SQL around it is not modelled | closed form of one scaling; disjoint blocks; L1 distance moved; Kullback-Leibler distance as a potential |
| C92 | the whole function, exact reals, sizes modulo 2^64 | the running sum is the sum of the window, by induction |
| C93 | one column's binspec and every cell's bin, exact reals, plus a rounding model for the closed top | floor inequalities |
| C94 | the whole function with its array updated in place, exact reals | invariant: each array cell is the portion of lattice paths to it that stay within the bound |
| C95 | all three functions, exact reals | strong induction on the exponent; the scale is an invariant |
| C96 | the distance loops and p values, exact reals; sorting is C18 | induction over the sorted sample; step-function bounds |
| C97 | the statistic and output, exact reals with an infinity; the chi-squared tail is a parameter | list induction |
| C98 | all three functions over the reals with infinities and NaN; the t distribution is a parameter | algebra of means and variances |
| C99 | the matrix algebra over Mathlib matrices of reals, the error and the ownership of the contrast's parts | block inverse of the demeaned cross products; positive definiteness |
| C100 | the whole function, exact reals, total truncated to int; the chi-squared tail is a parameter | finite sums |
| C101 | what the queries return, by C103's aggregates and SQL's group by, and the table made of it | list sums |
| C102 | the whole function; GSL's distribution functions are parameters with the symmetry they have | case analysis on the kind of distribution |
| C103 | steps and finalizers, exact reals, registration by name | running averages as moments, by induction; moment expansion |
| C104 | the callback with its state and the three functions, over what SQLite hands over; numbers and atof are parameters | invariant over the rows |
| C105 | the callback over the text grid of C09 and C10 | invariant over rows and over the cells of a row |
| C106 | the callback and its state, reads of the list of types included | loop invariant with the row split in done and not done; invariant over rows |
| C107 | both functions over a model of the database (tables, names up to case, bound fields) | field positions by induction on the list of bindings; rows by induction |
| C108 | the functions over the same database model | case-insensitive uniqueness of names in the database |
| C109 | the functions, allocation and filling as in C04 and C36 | case analysis; filling by C36 |
| C110 | both functions over extended reals with NaN, exact exp and log | exp and log on the extended reals are inverse |
| C111 | memory with matrices, counters and groups | simulation relation between memory and the groups as values |
| C112 | as C111 | invariants: counter at least (exactly) the number of live users |
| C113 | the calls as an inductive relation | induction on the derivation |
| C114 | the hash macros over 64-bit pointers and the registry of C25 | C25; odd multipliers are invertible modulo 2^64 |
| C115 | Out/Num, Out/Print (byte-level printing), Parse/* (byte-level reading) | print yields lines of joined items; joined plain items are parsed as the stripped items (both kinds of delimiter); digits/readDec inverse; C45 |
| C116 | Out/Print, Parse/Files | as C115, with C33 |
| C117 | Out/Print, Out/Vector | white runs count as one (white_fields_run); line of empty item for the others with C45_few_names_ub |
| C118 | Out/Pages: files, FILE buffers with own offset or append mode | induction over the pages |
| C119 | gsl_deriv_central's two-pass five-point rule, one_d with constraint and state, gradient loop | five-point identity with remainder, case split over GSL's branch |
| C120 | nested gradients sharing one parameter set, accumulation of half sums | loop invariants for matrix and drift |
| C121 | inverse (GSL LU as exact inverse), names, page | from C120 and matrix inverse lemmas |
| C122 | shell functions with state; optimizer as an interaction tree | induction over the strategy |
| C123 | best value over the history, page | history invariant: greatest element |
| C124 | the loops with arbitrary outcomes | loop characterised, uniqueness of the end |
| C125 | dispatch | case analysis over the table |
| C126 | restart with roles and freed set | case analysis; induction over rounds |
| C127 | gsl_siman_solve loop with callbacks | invariant over iterations |
| C128 | sweeps and outer loop | induction; Archimedean bound for termination |
| C129 | table memory and copy | computation on lists |
| C130 | row function with max shift and overflow test, table search, sum | exp/log identities; induction over rows |
| C131 | prediction loop | induction over columns |
| C132 | row terms with clamps, score loop; Phi as the integral of the density | calculus: Phi' = phi |
| C133 | loop over categories with the static data set it builds | induction over categories; counterexamples |
| C134 | page lookup, conversion to factors, table search | case analysis; sorted distinct lists |
| C135 | starting point loop | exp/log of means |
| C136 | weights, copying into the output array | computation on arrays |
| C137 | inner loop with weights, threaded sum | induction; linearity of the integral |
| C138 | loop | induction; weighted mean bounds |
| C139 | PMF draw (C64 model) and kernel setting | from the PMF model |
| C140 | row loop with upper-triangle product; determinant and inverse by meaning | matrix algebra; change of variables by a square root of the covariance |
| C141 | means, covariance, info page value | completing the square; rank argument |
| C142 | factor, zeroing of the triangle, product, shift | change of variables |
| C143 | GSL's lnpdf by its source, sum over rows, score loop | gamma function calculus |
| C144 | ct_ll with missing parts and special values | log algebra; change of variables theorem |
| C145 | pointers to parameter blocks, prep, copy, free | memory model with explicit allocation |
| C146 | the two likelihood functions, the in-place rewriting of the parameters and its undoing, gsl_ran_multinomial_lnpdf by its source | induction on rows and bins; multinomial theorem by induction for the total |
| C147 | column sums, parameters, covariance page, dsize | Gibbs' inequality from log x <= x - 1; algebra |
| C148 | the conditional binomial loop as an exact probability mass function, gsl_ran_binomial by its documented law | induction on the bins, telescoping the conditional probabilities |
| C149 | one turn of the rejection loop on two uniform numbers, the loop on an infinite product probability space, the conversion to int as undefined from 2^31 | measure of the acceptance region as a product of intervals; Bernoulli's inequality shows the acceptance ratio is at most one; geometric series over turns |
| C150 | the function of two uniform numbers (gsl_ran_exponential by its source), conversion to int | Fubini; recursion for the integral of (1-s^p)^k by the fundamental theorem of calculus; Gamma function recursion |
| C151 | the functions as they are; GSL normal and t generators and distribution functions by their documented laws | preimages of half lines are half lines; measure of intervals |
| C152 | initial and meet on the alternating list of points and intersections, in exact arithmetic | the chords of a concave function: slopes decrease; each pair of lines is above; induction along the list |
| C153 | update: placing the two new nodes, moving a point too close to an end, the four calls of meet | invariant: all intersections equal meet of the current points; only the four nearest depend on the new point; induction over the history |
| C154 | cumulate, area, invert as they are, in exact arithmetic | fundamental theorem of calculus for each kind of piece; induction along the list; inverse functions |
| C155 | test with its squeezing, rejection and Metropolis parts; a round of apop_arms_draw on two or three uniform numbers | law of inversion by its distribution function; Fubini for the acceptance; ties are null sets |
| C156 | prep_z, apop_estimate_IV on exact reals | linear algebra over ℝ, induction over the substitutions |
| C157 | ols_log_likelihood with apop_vector_var (C52), gsl_ran_gaussian_pdf by formula | against Mathlib's gaussianPDFReal; C86's least squares |
| C158 | ols_score | HasDerivAt in every coordinate; normal equations |
| C159 | ols_predict, ols_shuffle | algebra |
| C160 | ols_rng with the random numbers as inputs; the array with its bounds | measure theory: product measure, Gaussian maps; induction over memcpy |
| C161 | the tests' loop, parameter models and CDFs | measure theory of symmetric laws |
| C162 | the three functions, GSL's LU routines by meaning | matrix algebra |
| C163 | the loop over leading minors | Sylvester's criterion by induction with Schur complements |
| C164 | the whole function as a transition relation; gsl_eigen_symmv by its defining equation | alternating projections: Frobenius distance to the diagonal matrix falls by a fixed amount each round; spectral theorem for existence |
| C165 | the whole function; gsl_linalg_SV_decomp by its documented meaning | singular vectors of a positive semidefinite matrix are eigenvectors; expansion in the components; Ky Fan's inequality |
| C166 | both functions, with the integer division of the check | induction over the product; parity |
| C167 | sigma_adapt, step_to_vector, setup_normal_proposals and their calls as a run over events | induction over the history; algebra of the factor |
| C168 | the newdraw loop on an i.i.d. stream; the step as a transition | law of the first allowed draw of a stream; reversibility with respect to the altered density; net flow across a level set of the passing chance |
| C169 | the branch's loop with its goto | induction over the draws; strong law of large numbers |
| C170 | the product model and the choice of method | extended-real logs; C72 |
| C171 | the swapped model under fix_params, the search as any list of calls | invariant over the calls, C79 |
| C172 | the loop over the columns with C51, C52, C55; the correlation formula | C52, C55, C60; linearity of the covariance |
| C173 | both functions on the list of draws made (one thread) | strong law of large numbers; variance of the Gaussian; Gibbs' inequality |
| C174 | the constraint sets and margins of the models over the model of apop_linear_constraint with its static scratch vector (Opt/ModelConstraints) | axis bounds: each candidate equals the clamped point, invariant of the scratch vector over histories; margin case by an invariant of candidates (Cand) and the orthant's edge; counterexample histories |
| C175 | the parse of contrasts, the SQL queries by their meaning (select distinct, natural join, where, except, union, group by), the nudge and the call of c_loglin (Rake/Setup) | induction over the joined relations (Joined invariant), group-by sums, reuse of C91's convergence of iterative proportional fitting; counterexamples for the nudge |
| C176 | the functions over the interleaving model of parallel loops of C46 (Map/Older) | schedule independence of Par.loop, then list lemmas; fair schedules end |
| C177 | the session state (connection, transaction, disk, leaked locks) with SQLite by its documented semantics, the API calls, and the writers as sequences of statements (Db/Session) | invariant (disk = what is seen, or the transaction's start) over all histories; induction over the statements for crash points |
| C178 | the call after reading (records from Parse), the create query's text, binding, insertion with constraint failures, both insertion paths, with SQLite's affinity, validity and constraints as parameters (Db/Import) | induction over the records; preservation relation (only rows added) composed over all steps |
| C179 | the functions over the reals; distributions as Mathlib's measures (Dist/TrueMoments) | x p(x) is a multiple of the density with a shape one larger, so moments are by shifting; Gaussian moment generating function |
| C180 | each thread's call as small steps on shared memory: look-up, two critical sections, filling and scaling element by element, search round by round, sum element by element; sequentially consistent (Pmf/Concurrent) | invariant with a phase of the vector and a condition on each thread's place; a measure of work left that every effective step lowers |
| C181 | the nesting of named critical sections in likelihoods, draws and chains over trees of models; sections not reentrant (Par/Sections) | an order on the sections that every program respects; wait-for chains climb it; measure of events left |
| C182 | the call as small steps on shared memory (enter, realloc, fill element by element, leave, read pointer, read element); realloc always moves (Rng/Threads) | invariant on how many generators are made and where each thread is; measure of steps left |
| C183 | The init, copy, use and free code of the seven settings groups that own memory, over a heap of blocks (an array, a model or a data set is one block); the mixture's pointer decrement is modelled as it is written. | A generic ownership invariant (blocks of live groups are live, disjoint, nothing lost) preserved by every step of every proper program, instantiated per group; the kernel density with an invariant about roots; refutations for every earlier history or by witness. |
| C184 | The conversion to ints, the margins and their sorting and exchange, the table of log factorials by its recursion, the observed path length and its denominator; over the reals. | The loops are shown to compute the path length of the table or of its transpose; the probability is e to the path length less the log of the multinomial coefficient, and is the same for the transpose. |
| C185 | The whole network: the generator of columns f7xact with its in-place state, hashing and decoding of nodes, the trees of past path lengths with merging within the tolerance, capacities, pruning with the two bounds, the last stage. f3xact and f4xact are those of C193 and C195. | f7xact is shown to generate every column once; a weighted-sum invariant over nodes and past path lengths (what has been added plus what the stored paths still stand for lies between two sums over all tables), by induction over stages, nodes and daughters; past path lengths are logs of integers, which makes merging exact for small tables; a bijection between tables and sequences of columns, and invariance under sorting and transposition. |
| C186 | iwork with its rounding up, the sixteen requests, ldkey with C's division. | By induction over requests, aligned requests are contiguous; the parity of the fixed sizes by case distinction; an explicit overlapping pair when it is odd. |
| C187 | As for C184 and C185, with the easy cases of f3xact and f4xact (one row; two by two). | Two columns: the only stage needs neither bounds nor hash tables. Two by two subtables: the hypergeometric mode by monotonicity of the ratio, the extreme by convexity of log factorials. |
| C188 | The tests at the start of fexact and f2xact in their order, conversion to int, the output with 'never set' as a value of its own. | Case analysis; congruence of every step in the truncated cells. |
| C189 | the checks, the three ways of placing, with the models of split, stack and column removal; column names as pointers that may be freed | composition of C12, C13 and C15; counterexamples for all data of a kind |
| C190 | the table of strings, its column widths and the printed bytes; %g as any function | loops as rectangles; case analysis over the places; prefix lengths |
| C191 | Regress/OlsNames.lean: shuffleNames, nameParams, nameCov, namePred, testPage over the C01-C03 name structure | composition of C01-C03 lemmas; lookup via hash-in-step invariant |
| C192 | Regress/OlsNames.lean: wantsCov, wantsPred, fillsPred, shortCut, solvePages, rsqStep, finish, estimate; page contents as written/unwritten | exhaustive case analysis over the switch conditions, quantifying over all characters |
| C193 | f3xact and f10act over ints, rationals for the two quotients and reals for the logs (Fisher/F3.lean): easy cases, optimality tests, enumeration of rows, the stack of nodes with its capacity and integer keys, levels | a most probable table satisfies T_ij T_kl <= (T_il+1)(T_kj+1); summing gives the code's two quotients; an invariant (the minimum so far is small enough, or a pending node leads to it) is kept through the dynamic programming; f10act by tangents of log factorial |
| C194 | as C193, with reads outside the array as undefined behaviour | the row 1, 1, 0, -1 is among those tried for these totals (computed by the kernel), and every row tried is read |
| C195 | f4xact, f8xact, f11act (Fisher/F4.lean): easy cases, choice of the line, order and skipping of cells, reduction of the totals, depth first search with its early exits; log factorials over the reals | log factorial is convex: units can be poured into the largest cell of the line without making the table more probable, until it is the whole row or column (F4Math, F4Peel); induction on the depth; the converse adds the row or column back |
| C196 | Isort.lean: the scans L20/L30, the exchange, the choice of the pending part, the stack limit, out-of-vector access as ub. | Partition invariant on the two scans; induction on segment size with the bound 3*2^d-2 for d free places; the exact bound by a vector that splits in the middle eleven times. |
| C197 | VarList.lean: the loop over the answer to PRAGMA table_info, over the text grid model of C09/C10; the paste of C26. What SQLite answers is assumed. | Induction over the rows with the content of the first row as invariant, using C09, C10 and C26. |
| C198 | ParamModel.lean: lines 379-394 over the pack model of C21; the estimations' results are arbitrary. | Packing lemma of C21 for every row; r*c = r+c with positive r, c only for 2, 2. |
| C199 | CovPages.lean: draw, CDF, the pages' entries, over the estimates of C76; probability by Mathlib's measures, exact arithmetic. | Measure of intervals under the uniform law; variance of a sum of independent variables; samples of every size exist as product measures. |
| C200 | Dist/TEstimate.lean: the estimates in exact arithmetic over the means and variances of C51-C53; gsl_ran_tdist_pdf by its formula. | Second moment by integrating a derivative over the line; normalisation by writing the density as a mixture of Gaussians; affine change of variables. |
| C201 | Mod/Reestimate.lean: prep by the model of C109, apop_data_add_named_elmt and lookup by the models of C43 and C11; copies are taken as equal (C06); the estimator and the likelihood are parameters, with the exponential's and the t's as instances. | Invariants of the parameters and the info page over histories; the name search returns the first of equal names. |
| C202 | Mod/DrawRace.lean: the reads and writes of m->draw and of the settings as steps of threads, the critical section as a lock; sequentially consistent memory; running a chain is one step. | Invariant over all runs; a measure that falls with each step; an explicit schedule for the refutation. |
| C203 | Mod/BootCov.lean: the switch, parameter and pages of a model; the bootstrap of C90 with estimations that may fail to return; depth of calls bounded by fuel, whose end is undefined. | A model that declined needs no further call; C90_clean for the rows kept. |
| C204 | Transform/MixDraw.lean: the constructor, the sizes, the PMF over the components kept in the settings (the draw of C63 and C69), components as any draw functions. | C63_row for the search; an invariant (the kept PMF is of the weights) over histories. |
| C205 | Vtable/Race.lean: the table's pointer, count, lock and memory blocks, the accesses as steps; realloc always moves; sequentially consistent memory; new tables and drops are not in this model. | Invariant over all runs relating the memory to the insertions; a measure that falls with each step; an explicit schedule for the refutation. |
| C206 | Conv/CrossTrip.lean: the insertions as text with a reader of SQL literals, %g as rounding to six digits half to even, the records, the three answers, the loop of Conv/Model.lean, and the global. Numbers are rational with exact arithmetic; names all given (made-up ones: C38); is_aggregate 'n'. | Membership in the table in terms of the cells, uniqueness of the record under two names, C37, and the rounding lemmas. |
| C207 | Transform/FixShared.lean: base models at addresses, fixed-parameter models with a pointer, table and parameters; evaluation writes the base. The mle settings (C129), names and methods, and constraints (C79) are left out. | Refinement of a small specification (parameters given, own parameters, last written) by an invariant over all histories, on C79_fill. |
| C208 | Update/Setup.lean: the read and the write of the static counter, each registration and the lookup as steps; sequentially consistent memory; inside of registrations and lookups: C205. | Invariant over all runs (some thread has read 0 or is registering, or the table is complete); a measure for the end; explicit schedules for the refutation. |
| C209 | Db/ToDbWide.lean: the text, byte by byte, with the comma state, and the loop over rows; the creation of the table is C107's model; %g, strtod and the effect of a statement are arbitrary functions. | Induction over the values, with a reader of SQL value lists as specification; refutations by explicit cases. |
| C210 | Transform/MixConstraint.lean, on the packing of C81's Transform/Mixture.lean: the components' constraints, the linear constraint (C88) and the distance (C52) are arbitrary functions. | Induction over the components; the endless objection by induction over the calls. |
| C211 | Map/Names.lean on the models of C46-C48 and of names. | Cases over the kinds of functions: what is written into a new set leaves its names alone; then the lemmas on stacking names. |
| C212 | apop_predict over sets as lists of pages of vector and matrix (NaN is none); the method of the vtable as any function (C114 for which); the default through the model of apop_ml_impute (C171) | the count of NaNs is zero exactly if no element of the first page is missing; then C171_impute on the set asked for |
| C213 | apop_model_to_pmf from the draws (C50) as rows; the bins as any function of the draws and the row (C93 for which); PMF, compression and apop_p as in C62 and C65 | C62, C65 on the binned rows, and a count of the draws by bin |
| C214 | which element is read, the branches of the CDFs and the draws; GSL's functions by their documentation; exact reals | the set of uniform numbers giving a draw of at most x is an interval, whose length is computed; the exponential also by Mathlib's CDF of its exponential measure; the binomial by the binomial theorem |
| C215 | the blocks behind a name list as numbers on a heap with malloc, realloc (moving or not) and free; not the texts in them (C01-C03) | invariant: the live blocks are, as a multiset without repetition, those of the lists and the titles lost; each call keeps it |
<!-- rows -->

## Trusted base

**Kernel and axioms.** Every theorem is accepted by Lean 4.33.0's kernel. No axiom is declared, and no compiled evaluation
is used; `decide +kernel` only asks the kernel to evaluate a decision procedure on a closed term (used in examples, in counterexamples
and for facts about literals). `AXIOMS.txt` (written by `tools/axioms.py` from `#print axioms`) lists, for each theorem of the manifest, the axioms
it depends on: some subset of `propext`, `Classical.choice`, `Quot.sound`, and nothing else.

**The model is a reading of the code.** Nothing was compiled or run. That a definition says what the C function at the cited lines does is
checked only by reading, by the comments on each definition, and by the seeded bugs in `seeded/LOG.jsonl` (which show that the theorems
depend on the details modelled). The m4 wrappers (`APOP_VAR_HEAD`) are read as "fill in defaults, then run the body".

**Arithmetic.** Where the code computes with `double`, the model computes in exact ordered fields or the reals. Rounding, overflow to infinity,
denormals and the 1e-5-style numerical noise are *not* modelled, except where a special value decides control flow: NaN and infinities are then explicit
constructors (C38, C56, C144, C170 and others). `long double` accumulations are exact sums. C integers are modelled with wrapping or
as undefined on overflow where the code can reach it (hashes: wrapping `UInt64`; `int` overflow: `ub`, e.g. C149, C185); elsewhere sizes are natural numbers.

**Memory.** `malloc`/`realloc` never fail. Out-of-bounds, uninitialised, freed and NULL accesses are the outcome `ub`. GSL's range checks (which abort the program by
default) are `ub` as well. `realloc` may always move a block (C182); fresh blocks are distinct from all others (C183).

**Concurrency.** OpenMP programs are interleavings of small steps over sequentially consistent memory; named critical sections are not reentrant;
a schedule is any list of thread numbers (C46-C49, C176, C180-C182). Compiler reordering within data races is not modelled: where two threads race the theorems report the race.

**External libraries, by their documented meaning** (hypotheses or definitions in the model):
 * libc: `strcasecmp` and `tolower` in the C locale; `qsort`/`bsearch`/`lsearch` by meaning; `regexec`, `regcomp` as an abstract matcher that returns leftmost matches; `printf("%s")`
   of NULL as glibc prints it; `%g`/`%i` and `strtod` as arbitrary functions, with round-trip hypotheses where stated; decimal digits by the C definition.
 * GSL: vectors, matrices, BLAS, LU/Cholesky/Householder/SVD/symmetric eigen-solvers by their defining equations; `gsl_sort_vector_index` as a sorting permutation; `gsl_ran_*_pdf`,
   `gsl_ran_multinomial_lnpdf`, `gsl_ran_dirichlet_lnpdf`, `gsl_ran_exponential` by their source; `gsl_ran_binomial/gaussian/tdist/gamma/beta` by their documented laws; `gsl_cdf_exponential_P`, `gsl_cdf_binomial_P` (C214) by their formulas; `gsl_cdf_gaussian_P` as the
   integral of the density; `gsl_cdf_tdist_P` as the distribution function of a symmetric atomless law; `gsl_sf_gamma/lngamma/beta` as the functions; `gsl_deriv_central`, the
   minimisers and root finders as arbitrary strategies calling back; `gsl_siman_solve` by its loop.
 * Random numbers: `gsl_rng_uniform` is idealised to independent uniform reals on [0,1) (an infinite product measure), or the stream is an arbitrary input.
 * SQLite: statements and transactions are atomic and durable (C177); SQL queries mean the usual set/bag operations (C175); type affinity, validity of names and constraints are parameters (C178);
   user functions are called once per row of a group in some order (C103-C108).
 * User-supplied callbacks (models' methods, map functions, statistics) are arbitrary functions, with purity assumed only where a theorem says so.

## What is modelled and what is not

Modelled, by file (the citations on the definitions give the lines; about four fifths of the non-comment lines of the library are cited by some definition, the rest is mostly
declarations, argument defaults, warnings and documentation):
apop_name, apop_data, apop_sort, apop_settings, apop_vtables, apop_asst, apop_conversions (parsing, import, crosstabs, packing), apop_mapply,
apop_stats, apop_bootstrap, apop_missing_data, apop_mcmc, apop_update, apop_mle, apop_linear_constraint, apop_linear_algebra, apop_rake, apop_hist, apop_tests,
apop_regression, apop_db and apop_db_sqlite, apop_output, apop_model, apop_arms, apop_fexact; the models in model/ and the transformations in transform/.

Not modelled:
 * MySQL (`apop_db_mysql.c`), the Python and autotools parts, the command-line programs in cmd/ beyond the library calls they make, the m4 preprocessing itself.
 * apop_fexact: the chi-square approximation (never switched on by the library's call); single-precision
   rounding in its `fmin2`/`fmax2`.
 * Numerical accuracy of anything; timing; the wording of warnings; `apop_opts.stop_on_warning` aborting the process.
 * Improper uniform draws, the Beta rejection loop's law, the older print variants, and small show/print methods of individual models.

## Findings

Where the documented behaviour is false of the code, the property's statement says so and a theorem with the suffix `_refuted` proves it with a witness or for a whole class of inputs. They are
collected, by file, in `FINDINGS.md`.

Properties from C44 on were appended as the model grew.
