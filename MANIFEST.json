{
 "claims": [
  {
   "property": "C01",
   "status": "proved",
   "theorems": [
    "Softlib.C01_closed_by_one_eof"
   ],
   "note": "Any result of Lex, includes included: last token EOF, no other EOF, other tokens non-empty."
  },
  {
   "property": "C02",
   "status": "partial",
   "theorems": [
    "Softlib.C02_trailing_hash_diverges",
    "Softlib.C02_refuted",
    "Softlib.C02_self_include_unbounded",
    "Softlib.C02_terminates_partial",
    "Softlib.C02_plain_terminates_partial"
   ],
   "note": "Refuted as stated: a comment character '#' as last character of a text loops forever, and a self-including file recurses without bound. Proved with guards: texts (and included files) not ending in '#' never diverge; include-free texts not ending in '#' are lexed completely."
  },
  {
   "property": "C03",
   "status": "partial",
   "theorems": [
    "Softlib.C03_comment_invisible_partial",
    "Softlib.C03_comment_at_eof_leaks",
    "Softlib.C03_refuted"
   ],
   "note": "Refuted as stated: the last character of an unterminated comment at the end of the text is read as program text. Proved for comments ended by a newline."
  },
  {
   "property": "C04",
   "status": "proved",
   "theorems": [
    "Softlib.C04_blank_runs_interchangeable",
    "Softlib.C04_blanks_after_punctuation",
    "Softlib.C04_blanks_before_punctuation",
    "Softlib.C04_trailing_blanks",
    "Softlib.C04_tokens_of_layout"
   ],
   "note": "Blank runs are interchangeable, may be added or dropped around punctuation and at the end; tokens of any layout are those of its pieces."
  },
  {
   "property": "C05",
   "status": "proved",
   "theorems": [
    "Softlib.C05_kinds_from_context",
    "Softlib.C05_word_kind",
    "Softlib.C05_quoted_punctuation_is_punctuation"
   ],
   "note": "Kinds are a function of the previous kind and the word; the quoted single punctuation character is still punctuation (theorem)."
  },
  {
   "property": "C06",
   "status": "partial",
   "theorems": [
    "Softlib.C06_round_trip_partial",
    "Softlib.C06_canonical_round_trip_partial",
    "Softlib.C06_empty_document_ub"
   ],
   "note": "Refuted as stated only for the empty document (undefined behaviour). Proved for every non-empty document without repetitions, any layout, and for a concrete printer."
  },
  {
   "property": "C07",
   "status": "partial",
   "theorems": [
    "Softlib.C07_accepts_grammar_partial",
    "Softlib.C07_text_accepted_partial",
    "Softlib.C07_unclosed_rejected",
    "Softlib.C07_refuted"
   ],
   "note": "Refuted as stated only for the empty stream. Every non-empty stream: accepted iff in the grammar with balanced braces; unclosed documents throw."
  },
  {
   "property": "C08",
   "status": "partial",
   "theorems": [
    "Softlib.C08_no_ub_partial",
    "Softlib.C08_cut_statement_ub",
    "Softlib.C08_refuted",
    "Softlib.C08_missing_semicolon_text"
   ],
   "note": "Refuted as stated: any document whose last statement is cut short by the end of the text (e.g. missing final semicolon) and the empty document read past the token vector. Proved: no undefined behaviour when the last token is ; { or }. The exact condition is C83_undefined_exact: undefined behaviour if and only if there are no tokens or they end within a statement."
  },
  {
   "property": "C09",
   "status": "proved",
   "theorems": [
    "Softlib.C09_last_definition_wins",
    "Softlib.C09_no_duplicates",
    "Softlib.C09_blocks_are_those_opened",
    "Softlib.C09_blocks_of_type"
   ],
   "note": "Last definition wins, exactly the opened blocks exist, and uniqueness holds for every token stream, malformed ones included."
  },
  {
   "property": "C10",
   "status": "proved",
   "theorems": [
    "Softlib.C10_registration_bijective",
    "Softlib.C10_ids_are_stable"
   ],
   "note": "All histories of registrations from a new Configuration."
  },
  {
   "property": "C11",
   "status": "partial",
   "theorems": [
    "Softlib.C11_unknown_aliases_root",
    "Softlib.C11_refuted",
    "Softlib.C11_unknown_not_user_type_partial"
   ],
   "note": "Refuted as stated: every unregistered name is reported with the root's id 0. Proved: never with the id of a user type."
  },
  {
   "property": "C12",
   "status": "partial",
   "theorems": [
    "Softlib.C12_untouched_rule",
    "Softlib.C12_untouched_iff_never_read_partial",
    "Softlib.C12_refuted",
    "Softlib.C12_script_redefinition"
   ],
   "note": "Refuted as stated: defining a setting twice marks it as read (also through scripts). Exact rule proved for all histories; documented rule proved for settings defined once."
  },
  {
   "property": "C13",
   "status": "proved",
   "theorems": [
    "Softlib.C13_shape_unchanged",
    "Softlib.C13_values",
    "Softlib.C13_reported_names",
    "Softlib.C13_null_iff_all_known",
    "Softlib.C13_built_unique",
    "Softlib.C13_all_trees"
   ],
   "note": "Shape, values and reported names for every tree a program can make (C13_all_trees: no hypothesis on duplicates, which cannot arise, C13_built_unique). They hold of the objects too (C14_pointers)."
  },
  {
   "property": "C14",
   "status": "proved",
   "theorems": [
    "Softlib.C14_right_biased_union",
    "Softlib.C14_blocks_union",
    "Softlib.C14_all_trees",
    "Softlib.C14_last_wins",
    "Softlib.C14_pointers"
   ],
   "note": "Values and blocks of the merged tree for every tree a program can make (C14_all_trees), and for chains of merges (C14_last_wins). Ownership defects of the same call are C15. The merge of the objects themselves, with pointers shared, has exactly these values (C14_pointers)."
  },
  {
   "property": "C15",
   "status": "partial",
   "theorems": [
    "Softlib.C15_no_new_settings_partial",
    "Softlib.C15_double_free_iff_partial",
    "Softlib.C15_refuted",
    "Softlib.C15_source_changes_through_target"
   ],
   "note": "Refuted as stated: Merge with new settings allowed makes two blocks own the same setting object, so destroying both deletes it twice (C15_refuted). C15_double_free_iff_partial says exactly when; C15_no_new_settings_partial proves destroyability when new settings are not allowed."
  },
  {
   "property": "C16",
   "status": "partial",
   "theorems": [
    "Softlib.C16_copy_contents_partial",
    "Softlib.C16_copied_parents_point_to_original",
    "Softlib.C16_refuted"
   ],
   "note": "Refuted as stated: in a copied tree the sub-blocks' parent pointers point into the original (C16_refuted, C16_copied_parents_point_to_original). C16_copy_contents_partial proves equality of contents and freshness of the objects."
  },
  {
   "property": "C17",
   "status": "proved",
   "theorems": [
    "Softlib.C17_bool_check_matches_get",
    "Softlib.C17_bool_check_single"
   ],
   "note": "For all value lists and indices: check and getter agree, exactly the twelve texts are booleans."
  },
  {
   "property": "C18",
   "status": "partial",
   "theorems": [
    "Softlib.C18_digits",
    "Softlib.C18_blanks",
    "Softlib.C18_int32",
    "Softlib.C18_int64",
    "Softlib.C18_unsigned_rule",
    "Softlib.C18_unsigned_partial",
    "Softlib.C18_every_integer_written",
    "Softlib.C18_refuted",
    "Softlib.C18_characters",
    "Softlib.C18_outside"
   ],
   "note": "Refuted as stated for unsigned integers: -1 and values of 2^32 and above pass the 32-bit check and are returned modulo 2^32 (C18_refuted). Signed 32- and 64-bit checks proved exactly; unsigned rule proved exactly (C18_unsigned_rule)."
  },
  {
   "property": "C19",
   "status": "partial",
   "theorems": [
    "Softlib.C19_characters",
    "Softlib.C19_case",
    "Softlib.C19_longest",
    "Softlib.C19_scalar_partial",
    "Softlib.C19_vector_partial",
    "Softlib.C19_vector_length",
    "Softlib.C19_refuted"
   ],
   "note": "Refuted as stated: text after the number is accepted and out_of_range escapes from the check (C19_refuted). The limit of stod (ERANGE) is a parameter of the model."
  },
  {
   "property": "C20",
   "status": "partial",
   "theorems": [
    "Softlib.C20_overwrite_numbers_exact",
    "Softlib.C20_overwrite_others_exact",
    "Softlib.C20_refuted_unsigned",
    "Softlib.C20_overwrite_script_several",
    "Softlib.C20_numeric_vector_partial",
    "Softlib.C20_numeric_vector_rejects",
    "Softlib.C20_text_vector",
    "Softlib.C20_elements",
    "Softlib.C20_int32_elements",
    "Softlib.C20_integer_elements",
    "Softlib.C20_overwrite_doubles_partial",
    "Softlib.C20_overwrite_same_type_partial",
    "Softlib.C20_overwrite_strings_repeat_first",
    "Softlib.C20_overwrite_truncates_reals",
    "Softlib.C20_copy_partial",
    "Softlib.C20_refuted",
    "Softlib.C20_refuted_script",
    "Softlib.C20_other_type"
   ],
   "note": "Refuted as stated: GetNumericVector and OverwriteValues put n default values before the n values (C20_refuted), and negative integers change sign on overwriting unsigned settings (C20_refuted_unsigned). The result of every overwrite is given exactly (C20_overwrite_numbers_exact, C20_overwrite_others_exact); Copy rejects real and text settings."
  },
  {
   "property": "C21",
   "status": "proved",
   "theorems": [
    "Softlib.C21_type_by_extension",
    "Softlib.C21_every_name"
   ],
   "note": "Every file name: type depends only on the text after the last dot; exact table."
  },
  {
   "property": "C22",
   "status": "partial",
   "theorems": [
    "Softlib.C22_first_definition_wins",
    "Softlib.C22_round_trip_partial",
    "Softlib.C22_attribute_round_trip_partial",
    "Softlib.C22_refuted_no_rows",
    "Softlib.C22_refuted_precision",
    "Softlib.C22_integers_exact",
    "Softlib.C22_final_newline_optional"
   ],
   "note": "Refuted as stated: a matrix without rows makes Load write out of bounds (C22_refuted_no_rows) and the default output precision cannot reproduce all numbers (C22_refuted_precision, pigeonhole). Round trip proved for every matrix with a row whose entries the stream format reproduces, among any other variables; the first definition of a name wins."
  },
  {
   "property": "C23",
   "status": "proved",
   "theorems": [
    "Softlib.C23_round_trip",
    "Softlib.C23_second_write_ignored"
   ],
   "note": "Every byte string, any other variables; names must be non-empty and free of white space and not already used by an earlier string (C23_second_write_ignored)."
  },
  {
   "property": "C24",
   "status": "partial",
   "theorems": [
    "Softlib.C24_repeatable_iff_partial",
    "Softlib.C24_non_releasing_partial",
    "Softlib.C24_refuted",
    "Softlib.C24_column_vectors_rejected"
   ],
   "note": "Refuted as stated: reading a scalar twice is a use after free (C24_refuted). C24_repeatable_iff_partial gives the exact condition for all histories."
  },
  {
   "property": "C25",
   "status": "partial",
   "theorems": [
    "Softlib.C25_row_major_partial",
    "Softlib.C25_positions_in_range",
    "Softlib.C25_positions_distinct",
    "Softlib.C25_refuted",
    "Softlib.C25_zero_extent"
   ],
   "note": "Refuted as stated for one dimension (C25_refuted: index wraps, out-of-bounds read) and zero extents. Proved for all ranks of 2 and more with positive extents."
  },
  {
   "property": "C26",
   "status": "proved",
   "theorems": [
    "Softlib.C26_scalar_iff_one_by_one",
    "Softlib.C26_sdt",
    "Softlib.C26_sdt_attribute"
   ],
   "note": "For any reader of proper matrices, and for SDT files with arbitrary contents (including hand-written ones)."
  },
  {
   "property": "C27",
   "status": "partial",
   "theorems": [
    "Softlib.C27_lines_partial",
    "Softlib.C27_number_of_lines",
    "Softlib.C27_evenly_spaced",
    "Softlib.C27_last_line",
    "Softlib.C27_refuted"
   ],
   "note": "Refuted as stated: with fewer iterations than lines wanted (n < nprint) the last line reads n/nprint, not 100% (C27_refuted). Proved for all n and nprint >= 1: number of lines, their positions, spacing, last line at iteration n; 100% exactly when n >= nprint."
  },
  {
   "property": "C28",
   "status": "partial",
   "theorems": [
    "Softlib.C28_undisturbed_partial",
    "Softlib.C28_counters_in_range_partial",
    "Softlib.C28_line_count_partial",
    "Softlib.C28_refuted"
   ],
   "note": "Refuted as stated: the counter is read outside the critical section, so two overlapping calls can print the same line twice (C28_refuted). Proved for every schedule of any number of calls: at most nprint lines, counters in 1..nprint; undisturbed calls print every counter once."
  },
  {
   "property": "C29",
   "status": "partial",
   "theorems": [
    "Softlib.C29_exact",
    "Softlib.C29_below_a_day_partial",
    "Softlib.C29_wrong_from_a_day",
    "Softlib.C29_refuted",
    "Softlib.C29_text"
   ],
   "note": "Refuted as stated: from one day on the hours are wrong since a day is subtracted as one hour (C29_refuted, C29_wrong_from_a_day). Proved below a day, plus an exact description for all durations."
  },
  {
   "property": "C30",
   "status": "partial",
   "theorems": [
    "Softlib.C30_running_time_partial",
    "Softlib.C30_refuted",
    "Softlib.C30_every_history"
   ],
   "note": "Refuted as stated: a second Stop counts stopped time and Continue on a running timer discards time (C30_refuted). Proved for all histories in which Stop and Continue alternate, and the exact result for every other history (C30_every_history)."
  },
  {
   "property": "C31",
   "status": "partial",
   "theorems": [
    "Softlib.C31_exact",
    "Softlib.C31_short_partial",
    "Softlib.C31_refuted",
    "Softlib.C31_formatting_fails"
   ],
   "note": "Refuted as stated: messages of 1000 or more characters lose their last character (C31_refuted). Proved for shorter ones, with an exact description for all."
  },
  {
   "property": "C32",
   "status": "partial",
   "theorems": [
    "Softlib.C32_rounded_exact",
    "Softlib.C32_rounded_div",
    "Softlib.C32_rounded_dot",
    "Softlib.C32_rounded_laws",
    "Softlib.C32_rounded_cross_sign",
    "Softlib.C32_refuted_rounded_sum",
    "Softlib.C32_refuted_rounded_div",
    "Softlib.C32_add_sub",
    "Softlib.C32_scalar_ops",
    "Softlib.C32_neg",
    "Softlib.C32_dot",
    "Softlib.C32_norm",
    "Softlib.C32_normalize",
    "Softlib.C32_cross"
   ],
   "note": "Refuted as stated in double precision: division multiplies by a rounded reciprocal, so entries 49 divided by 49 are not 1 (C32_refuted_rounded_div), and sums are not associative (C32_refuted_rounded_sum). Proved in exact field arithmetic on the memory-level model, where operands may alias each other (Norm over the reals). With every operation rounded: error bounds for division and scalar product (C32_rounded_div, C32_rounded_dot), and the laws that stay exact (C32_rounded_laws, C32_rounded_cross_sign)."
  },
  {
   "property": "C33",
   "status": "partial",
   "theorems": [
    "Softlib.C33_rounded_exact",
    "Softlib.C33_rounded_product",
    "Softlib.C33_rounded_vector",
    "Softlib.C33_rounded_outer",
    "Softlib.C33_rounded_unit",
    "Softlib.C33_refuted_rounded",
    "Softlib.C33_mul_assign_exact",
    "Softlib.C33_mul_assign_lower_partial",
    "Softlib.C33_mul_assign_first_column",
    "Softlib.C33_mul_assign_self_refuted",
    "Softlib.C33_elementwise_partial",
    "Softlib.C33_matrix_product",
    "Softlib.C33_matrix_vector",
    "Softlib.C33_construction",
    "Softlib.C33_scalar_actual",
    "Softlib.C33_neg_in_place",
    "Softlib.C33_refuted",
    "Softlib.C33_mul_assign_refuted",
    "Softlib.C33_mul_assign_out_of_bounds"
   ],
   "note": "Refuted as stated: scalar*matrix and matrix*scalar add the scalar, scalar-matrix computes matrix-scalar, unary minus changes its operand, *= overwrites while reading and goes out of bounds for M > N (C33_refuted, C33_mul_assign_refuted, C33_mul_assign_self_refuted, C33_mul_assign_out_of_bounds). operator= and += with a matrix (hence matrix+matrix) and vector*matrix do not compile when used. Proved: construction, differences, scalar sums, in-place scaling, matrix*vector, matrix*matrix. What *= computes is proved exactly for every shape with M <= N, also for A *= A (C33_mul_assign_exact): it is the product when the other factor is zero above the diagonal (C33_mul_assign_lower_partial), and always in the first column (C33_mul_assign_first_column). With rounded arithmetic the elements of matrix*matrix, matrix*vector and of the matrix made of two vectors have proved error bounds for every size and precision (C33_rounded_product, C33_rounded_vector, C33_rounded_outer), products with the unit matrix are exact (C33_rounded_unit), and equality with the textbook product is refuted for every precision (C33_refuted_rounded)."
  },
  {
   "property": "C34",
   "status": "partial",
   "theorems": [
    "Softlib.C34_storage_partial",
    "Softlib.C34_refuted",
    "Softlib.C34_step_appends_partial"
   ],
   "note": "Refuted as stated: indices are 32-bit products ntimesteps*N, so for 2^32/N or more stored points the last overwrites the first (C34_refuted: N = 2, 2^31+1 points). Proved for every history that fits into 32 bits, on new and reused integrators, and for every run of Step."
  },
  {
   "property": "C35",
   "status": "proved",
   "theorems": [
    "Softlib.C35_step_is_runge_kutta",
    "Softlib.C35_row_sums",
    "Softlib.C35_order_five",
    "Softlib.C35_embedded_order_four",
    "Softlib.C35_polynomials_exact",
    "Softlib.C35_error_zero_for_cubics"
   ],
   "note": "Exact rational coefficients; order conditions as trees up to order five (main) and four (embedded), exactness on polynomials as a check independent of the tree list."
  },
  {
   "property": "C36",
   "status": "partial",
   "theorems": [
    "Softlib.C36_accepted_iff",
    "Softlib.C36_flag",
    "Softlib.C36_range_partial",
    "Softlib.C36_no_growth_after_rejection",
    "Softlib.C36_rejected_shrinks",
    "Softlib.C36_refuted",
    "Softlib.C36_step_no_growth"
   ],
   "note": "Refuted as stated: a NaN error estimate gives a step 0.1 times the old one, below the minimum scale 0.2 (C36_refuted). Everything else proved for all numeric and infinite estimates; real powers, exact arithmetic."
  },
  {
   "property": "C37",
   "status": "partial",
   "theorems": [
    "Softlib.C37_forward",
    "Softlib.C37_rejections_end_partial",
    "Softlib.C37_rejections_end_flushing",
    "Softlib.C37_refuted_at_zero",
    "Softlib.C37_refuted_unchecked",
    "Softlib.C37_rounded_exact",
    "Softlib.C37_rounded",
    "Softlib.C37_rounded_strict",
    "Softlib.C37_rounded_rejections_end",
    "Softlib.C37_refuted_rounded"
   ],
   "note": "Refuted as stated: at time 0 the underflow test compares with 0*eps and exact rejections never end (C37_refuted_at_zero); also steps below resolution are accepted unchecked (C37_refuted_unchecked), which in double precision leaves the time unchanged (C37_refuted_rounded). Proved: times strictly increase in exact arithmetic; rejections end for nonzero time, and for any time when arithmetic flushes to zero; with rounding times never decrease, and increase after a rejection or for steps above the resolution (C37_rounded, C37_rounded_strict, C37_rounded_rejections_end)."
  },
  {
   "property": "C38",
   "status": "partial",
   "theorems": [
    "Softlib.C38_rounded_exact",
    "Softlib.C38_rounded",
    "Softlib.C38_rounded_stored",
    "Softlib.C38_rounded_error",
    "Softlib.C38_rounded_same",
    "Softlib.C38_refuted_rounded",
    "Softlib.C38_values_partial",
    "Softlib.C38_ends",
    "Softlib.C38_end_derivatives",
    "Softlib.C38_stored_times",
    "Softlib.C38_beyond_rejected",
    "Softlib.C38_refuted_below",
    "Softlib.C38_any_order",
    "Softlib.C38_refuted_unsorted",
    "Softlib.C38_undefined"
   ],
   "note": "Refuted as stated: requests before the first time are extrapolated (C38_refuted_below) and unsorted requests use the wrong step (C38_refuted_unsorted); undefined with fewer than two points or dense output off (C38_undefined); in double precision the answer at a stored time can differ from the stored solution (C38_refuted_rounded). Proved for sorted requests within the interval, for all reachable integrators; exact results for requests in any order in C38_any_order; with rounding, numbers for all sorted requests (C38_rounded) and the exact value at stored times (C38_rounded_stored) with its error (C38_rounded_error, C38_rounded_same)."
  },
  {
   "property": "C39",
   "status": "partial",
   "theorems": [
    "Softlib.C39_rounded_exact",
    "Softlib.C39_rounded",
    "Softlib.C39_rounded_double",
    "Softlib.C39_refuted_rounded",
    "Softlib.C39_uniform_times",
    "Softlib.C39_degenerate"
   ],
   "note": "Refuted as stated in double precision: between neighbouring numbers there is no room for strictly increasing times (C39_refuted_rounded: 4 points on [1, 1 + 2^-52]). Proved in exact arithmetic for every proper interval (C39_uniform_times) and every degenerate case; with every operation rounded (C39_rounded, C39_rounded_double): nt times, the first and the last exact, in order, none outside the interval, for every 32-bit number of points."
  },
  {
   "property": "C40",
   "status": "partial",
   "theorems": [
    "Softlib.C40_rounded_exact",
    "Softlib.C40_rounded_low",
    "Softlib.C40_rounded_high",
    "Softlib.C40_rounded_between",
    "Softlib.C40_refuted_rounded",
    "Softlib.C40_low_partial",
    "Softlib.C40_high_partial",
    "Softlib.C40_nodes_partial",
    "Softlib.C40_between_partial",
    "Softlib.C40_maps",
    "Softlib.C40_refuted",
    "Softlib.C40_refuted_huge",
    "Softlib.C40_defined_iff",
    "Softlib.C40_scaled"
   ],
   "note": "Refuted as stated: the value is divided by vmax instead of vmax - vmin (C40_refuted), and values whose scaled form does not fit an int are undefined (C40_refuted_huge). Proved with vmax read as the width of the range (same thing for vmin = 0, as in both built-in maps), for all values within int range. C40_defined_iff says exactly which values are defined; C40_scaled gives the colour of every range by the width that the code uses. With every operation rounded the clamping stays exact (C40_rounded_low, C40_rounded_high) and a channel is at most one below its neighbours (C40_rounded_between); the one below happens between equal colours (C40_refuted_rounded). Both maps of the library run from black to white with growing brightness (C40_maps)."
  },
  {
   "property": "C41",
   "status": "partial",
   "theorems": [
    "Softlib.C41_ppm_partial",
    "Softlib.C41_refuted",
    "Softlib.C41_builtin_partial",
    "Softlib.C41_png_rows_partial"
   ],
   "note": "Refuted as stated: indices are 32-bit, images with more than 2^32 elements repeat elements (C41_refuted). Proved against an independent reader of the PPM format for all smaller images; also for the rows handed to libpng."
  },
  {
   "property": "C42",
   "status": "partial",
   "theorems": [
    "Softlib.C42_trapezoid_partial",
    "Softlib.C42_true_maximum_partial",
    "Softlib.C42_refuted_endless",
    "Softlib.C42_refuted_bounds",
    "Softlib.C42_zero_step",
    "Softlib.C42_rounded_partial",
    "Softlib.C42_rounded_double",
    "Softlib.C42_rounded_error",
    "Softlib.C42_refuted_rounded",
    "Softlib.C42_lost_exactly",
    "Softlib.C42_rounded_exact"
   ],
   "note": "Refuted as stated: the climb to a larger sample ignores the bounds and may never end (C42_refuted_endless), and the first pair is used even outside the bounds (C42_refuted_bounds). Proved for every integrand exceeding the peak value at finitely many grid points. With every operation rounded: a step that is small against the bounds is lost and evaluation does not end (C42_refuted_rounded, for every number of digits); with bounds within 2^52 - 1 steps it ends with the rounded trapezoidal sum (C42_rounded_partial, C42_rounded_double), whose error is bounded for samples that are not negative (C42_rounded_error)."
  },
  {
   "property": "C43",
   "status": "partial",
   "theorems": [
    "Softlib.C43_rounded",
    "Softlib.C43_rounded_double",
    "Softlib.C43_refuted_rounded",
    "Softlib.C43_shrinks",
    "Softlib.C43_in_range",
    "Softlib.C43_bracket",
    "Softlib.C43_close",
    "Softlib.C43_tolerance",
    "Softlib.C43_wrong_half"
   ],
   "note": "Refuted as stated in double precision: after 80 rounds the result for x is beyond 2*pi (C43_refuted_rounded). Proved in exact real arithmetic, and with every operation rounded as long as the bracket is large compared with the errors (C43_rounded), in double precision for up to 50 rounds (C43_rounded_double; the default tolerance gives 13). Beside the claim: the final comparison returns the middle of the half that does not contain the maximiser (C43_wrong_half), still within the bracket's width."
  },
  {
   "property": "C44",
   "status": "partial",
   "theorems": [
    "Softlib.C44_exact",
    "Softlib.C44_no_miss_partial",
    "Softlib.C44_iff_partial",
    "Softlib.C44_refuted_parallel",
    "Softlib.C44_refuted_vertex",
    "Softlib.C44_refuted_open",
    "Softlib.C44_empty_undefined",
    "Softlib.C44_rounded_hit",
    "Softlib.C44_rounded_miss",
    "Softlib.C44_rounded",
    "Softlib.C44_rounded_double",
    "Softlib.C44_rounded_exact",
    "Softlib.C44_refuted_rounded"
   ],
   "note": "Refuted as stated: a path parallel to any side, however far, is reported as crossing (C44_refuted_parallel); a path starting in the first vertex is not seen (C44_refuted_vertex); the closing side of an open vertex list is never tested (C44_refuted_open); an empty domain is read outside (C44_empty_undefined). Proved: exact characterisation (C44_exact), no crossing missed unless the path starts in the first vertex, and the equivalence when no side is parallel. With every operation rounded: a crossing that is clear by the margins of rounding is never missed (C44_rounded_hit), nothing is reported when every side is clearly missed (C44_rounded_miss), the answer is the exact one if every side is met or missed clearly (C44_rounded; margins in double precision: C44_rounded_double); in double precision a path through the wall close to a corner is missed by both sides (C44_refuted_rounded)."
  },
  {
   "property": "C45",
   "status": "partial",
   "theorems": [
    "Softlib.C45_bounds_partial",
    "Softlib.C45_refuted"
   ],
   "note": "Refuted as stated: SetDomain does not invalidate the cached rectangle (C45_refuted). Proved for every history: all answers are the smallest rectangle around the axis and the domain in force at the first query."
  },
  {
   "property": "C46",
   "status": "partial",
   "theorems": [
    "Softlib.C46_max_radius_partial",
    "Softlib.C46_max_min_partial",
    "Softlib.C46_first_two",
    "Softlib.C46_refuted_undefined",
    "Softlib.C46_refuted_analytical",
    "Softlib.C46_refuted_third",
    "Softlib.C46_rounded_exact",
    "Softlib.C46_rounded",
    "Softlib.C46_rounded_double",
    "Softlib.C46_refuted_rounded"
   ],
   "note": "Refuted as stated: if the closing side reaches the axis height the code always reads or writes outside its arrays (C46_refuted_undefined), which happens in the constructor of every analytical field (C46_refuted_analytical); only the first two crossings are considered and a vertex at axis height counts twice (C46_refuted_third). Proved: correct when the first and last vertex are strictly on one side and at most two sides reach the height; the same for FindMaxMin without the first condition. C46_first_two gives the result for every wall: the largest radius at axis height of the first part of the wall that has two crossings. With every operation rounded the result is the exact one up to 2^-49 of the largest radius (C46_rounded, C46_rounded_double), so that the largest radius found can be outside the wall (C46_refuted_rounded)."
  },
  {
   "property": "C47",
   "status": "partial",
   "theorems": [
    "Softlib.C47_no_miss_partial",
    "Softlib.C47_pointer_overload",
    "Softlib.C47_refuted_horizontal",
    "Softlib.C47_refuted_wall",
    "Softlib.C47_refuted_pointers"
   ],
   "note": "Refuted as stated: horizontal tiles with positive radii are never hit (C47_refuted_horizontal, C47_refuted_wall); the pointer overload passes xyz0[1] as height (C47_refuted_pointers). Proved: with coordinates, no crossing of a non-horizontal tile is missed, closing tile included."
  },
  {
   "property": "C48",
   "status": "partial",
   "theorems": [
    "Softlib.C48_jacobian",
    "Softlib.C48_partials",
    "Softlib.C48_divergence",
    "Softlib.C48_curl",
    "Softlib.C48_same_field",
    "Softlib.C48_strength_partial",
    "Softlib.C48_strength_sq",
    "Softlib.C48_refuted",
    "Softlib.C48_components",
    "Softlib.C48_reversed"
   ],
   "note": "Proved for every point off the symmetry axis (magnetic axis included) and every profile that can be evaluated there: Jacobian (along every differentiable curve), divergence, curl, square of the strength. Refuted as stated only for B0*Rm < 0, which the constructor accepts: the reported strength is then minus the norm (C48_refuted). Exact real arithmetic."
  },
  {
   "property": "C49",
   "status": "partial",
   "theorems": [
    "Softlib.C49_exact",
    "Softlib.C49_gradient_partial",
    "Softlib.C49_refuted",
    "Softlib.C49_axis_zero",
    "Softlib.C49_refuted_axis"
   ],
   "note": "Refuted as stated: the code uses (1 - r q') instead of (1 - r q'/q); wherever r q' is non-zero and q is not 1 the gradient is wrong (C49_refuted); on the magnetic axis it is reported as zero (C49_refuted_axis). Proved: exact error (C49_exact), correctness where r q' = 0 or q = 1."
  },
  {
   "property": "C50",
   "status": "proved",
   "theorems": [
    "Softlib.C50_same_flux",
    "Softlib.C50_flux_derivatives",
    "Softlib.C50_tangent"
   ],
   "note": "Every point off the symmetry axis, magnetic axis included; profiles that can be evaluated there (no zero denominator)."
  },
  {
   "property": "C51",
   "status": "proved",
   "theorems": [
    "Softlib.C51_rdqdr",
    "Softlib.C51_rdqdr_axis"
   ],
   "note": "Every positive radius, and the axis (value 0); profiles without zero denominator."
  },
  {
   "property": "C52",
   "status": "partial",
   "theorems": [
    "Softlib.C52_axisymmetric_partial",
    "Softlib.C52_refuted_axis",
    "Softlib.C52_norm_partial",
    "Softlib.C52_norm_exact",
    "Softlib.C52_refuted_outside",
    "Softlib.C52_consistent",
    "Softlib.C52_zero_field",
    "Softlib.C52_jacobian",
    "Softlib.C52_gradient",
    "Softlib.C52_outside_jacobian",
    "Softlib.C52_flux"
   ],
   "note": "Refuted as stated: on the torus axis of a grid with rmin = 0 the field is a fixed horizontal vector (C52_refuted_axis), and outside the radial range the horizontal components are scaled by true radius over clamped radius (C52_refuted_outside, C52_norm_exact). Proved: rotation equivariance for every point with nonzero clamped radius, norm inside the radial range, |B|, gradient and curl consistent with the reported Jacobian everywhere, and (given that the spline derivatives are derivatives, which is proved for those of GSL in C123_smooth) Jacobian and gradient are the true ones inside the grid. A zero field makes |B| and its gradient NaN (C52_zero_field)."
  },
  {
   "property": "C53",
   "status": "partial",
   "theorems": [
    "Softlib.C53_transposed",
    "Softlib.C53_rows",
    "Softlib.C53_roundtrip_partial",
    "Softlib.C53_refuted_noflux",
    "Softlib.C53_refuted_sdt",
    "Softlib.C53_two_point_columns",
    "Softlib.C53_columns"
   ],
   "note": "Refuted as stated: a field without flux cannot be saved (null pointer used as data) and no field can be saved as SDT (WriteMultiArray always throws). Proved for every constructed field with flux, every non-empty grid, HDF5/MAT; the backend is assumed to return what was written."
  },
  {
   "property": "C54",
   "status": "partial",
   "theorems": [
    "Softlib.C54_analytic_clone",
    "Softlib.C54_contours",
    "Softlib.C54_no_contour",
    "Softlib.C54_members",
    "Softlib.C54_clone_partial",
    "Softlib.C54_refuted_separatrix"
   ],
   "note": "Refuted as stated: the clone of a field with a separatrix only has an empty domain, and CrossesDomain on it is undefined (C54_refuted_separatrix). Proved: a field with a wall (with or without separatrix and flux) and its clone answer every query alike; the analytical field's clone is the same object value."
  },
  {
   "property": "C55",
   "status": "partial",
   "theorems": [
    "Softlib.C55_search_partial",
    "Softlib.C55_search_exact",
    "Softlib.C55_gocode_search",
    "Softlib.C55_refuted_single",
    "Softlib.C55_empty",
    "Softlib.C55_refuted_decreasing",
    "Softlib.C55_refuted_overflow"
   ],
   "note": "Refuted as stated for a grid of one radius (always index 0), for decreasing grids accepted by Initialize, and for grids of 2^31-1 radii (signed overflow in the bisection). Proved for every strictly increasing grid of 2 to 2^30 radii."
  },
  {
   "property": "C56",
   "status": "partial",
   "theorems": [
    "Softlib.C56_between_partial",
    "Softlib.C56_grid_partial",
    "Softlib.C56_below_partial",
    "Softlib.C56_above_exact",
    "Softlib.C56_refuted_above",
    "Softlib.C56_refuted_zero",
    "Softlib.C56_outside_throws",
    "Softlib.C56_single",
    "Softlib.C56_refuted_initialize",
    "Softlib.C56_initialize_iff",
    "Softlib.C56_refuted_initialize_single",
    "Softlib.C56_gocode_eval",
    "Softlib.C56_refuted_gocode_below",
    "Softlib.C56_refuted_gocode_single",
    "Softlib.C56_refuted_gocode_empty",
    "Softlib.C56_rounded_exact",
    "Softlib.C56_rounded_between",
    "Softlib.C56_rounded_grid",
    "Softlib.C56_refuted_rounded",
    "Softlib.C56_refuted_rounded_first"
   ],
   "note": "Refuted as stated: extrapolation above the grid uses a wrong far point, a first radius of zero divides by zero, Initialize drops the first radius, GO+CODE extrapolates below from the last two radii. Proved: linear between radii, exact at grid radii, linear below, throws outside when extrapolation is not allowed, exact formula above. With every operation rounded: between later radii not negative and the line up to a factor near one (C56_rounded_between), at later radii two roundings away (C56_rounded_grid, C56_refuted_rounded); in the first interval a negative value comes out of values that are not negative (C56_refuted_rounded_first)."
  },
  {
   "property": "C57",
   "status": "partial",
   "theorems": [
    "Softlib.C57_insert_partial",
    "Softlib.C57_order_partial",
    "Softlib.C57_eval_partial",
    "Softlib.C57_refuted_below",
    "Softlib.C57_refuted_two",
    "Softlib.C57_refuted_order"
   ],
   "note": "Refuted as stated: inserting a radius below the first misplaces it. Proved for every order that starts with the smallest radius."
  },
  {
   "property": "C58",
   "status": "partial",
   "theorems": [
    "Softlib.C58_code_partial",
    "Softlib.C58_numeric_partial",
    "Softlib.C58_refuted_extrapolation",
    "Softlib.C58_gocode",
    "Softlib.C58_momentum_partial",
    "Softlib.C58_refuted_log",
    "Softlib.C58_profile",
    "Softlib.C58_analytical",
    "Softlib.C58_radial"
   ],
   "note": "Refuted as stated: the clone of a logarithmic table returns logarithms, and the clone of a distribution that forbids extrapolation allows it. Proved for linear tables, numeric distributions that allow extrapolation, GO+CODE, CODE, radial and analytical distributions."
  },
  {
   "property": "C59",
   "status": "proved",
   "theorems": [
    "Softlib.C59_table",
    "Softlib.C59_accepts",
    "Softlib.C59_accepts_iff",
    "Softlib.C59_flip",
    "Softlib.C59_flip_back",
    "Softlib.C59_outside",
    "Softlib.C59_inside",
    "Softlib.C59_log_nonneg",
    "Softlib.C59_log_grid",
    "Softlib.C59_rejects",
    "Softlib.C59_rejects_negative",
    "Softlib.C59_numeric"
   ],
   "note": "GSL's two-dimensional spline is a parameter; C59_log_grid assumes it reproduces its table at the node. Which tables are accepted is exact (C59_accepts_iff), with the requirements of GSL."
  },
  {
   "property": "C60",
   "status": "partial",
   "theorems": [
    "Softlib.C60_history_partial",
    "Softlib.C60_other_pitch_partial",
    "Softlib.C60_refuted_conversion",
    "Softlib.C60_reversed_pitch"
   ],
   "note": "Refuted as stated: after ToMomentumSpace an evaluation at the last evaluated pitch uses the Legendre values of another pitch. Proved for every history of evaluations, and for every history at any other pitch; at least two modes (fewer overrun the array, C61)."
  },
  {
   "property": "C61",
   "status": "partial",
   "theorems": [
    "Softlib.C61_rounded_exact",
    "Softlib.C61_rounded",
    "Softlib.C61_double",
    "Softlib.C61_rounded_parity",
    "Softlib.C61_refuted_rounded",
    "Softlib.C61_rounded_sum",
    "Softlib.C61_rounded_value",
    "Softlib.C61_bonnet",
    "Softlib.C61_values_partial",
    "Softlib.C61_refuted_few",
    "Softlib.C61_one",
    "Softlib.C61_parity",
    "Softlib.C61_bounded"
   ],
   "note": "Refuted as stated for 0 and 1 modes (writes outside the array). Proved for two or more modes; recursion, parity, value at 1 and bound by one for every degree over the reals. With every operation rounded, mode l is within 3((1+u)^4-1) l(l-1) of the polynomial for every rounding and every x in [-1,1] (C61_rounded; C61_double for up to ten million modes), so is the sum of the modes (C61_rounded_sum, C61_rounded_value); parity is exact (C61_rounded_parity); the value at one is not (C61_refuted_rounded)."
  },
  {
   "property": "C62",
   "status": "partial",
   "theorems": [
    "Softlib.C62_code",
    "Softlib.C62_dream_partial",
    "Softlib.C62_refuted_dream",
    "Softlib.C62_dream_data"
   ],
   "note": "Refuted as stated for DREAM: the step just after the last is accepted and read past the end of the data. Proved for CODE and GO+CODE, and for DREAM at all other steps when the size does not overflow 64 bits."
  },
  {
   "property": "C63",
   "status": "partial",
   "theorems": [
    "Softlib.C63_linear",
    "Softlib.C63_power_partial",
    "Softlib.C63_refuted_power_zero",
    "Softlib.C63_refuted_power_negative",
    "Softlib.C63_bessel",
    "Softlib.C63_gaussian",
    "Softlib.C63_gaussian_not_cutOff",
    "Softlib.C63_rejects",
    "Softlib.C63_uniform",
    "Softlib.C63_unit",
    "Softlib.C63_product",
    "Softlib.C63_shift",
    "Softlib.C63_rounded_exact",
    "Softlib.C63_rounded",
    "Softlib.C63_rounded_double"
   ],
   "note": "Refuted as stated: PowerRadialProfile accepts exponents that are not positive (zero profile, or infinite at the inner edge and negative inside). Proved: linear, Bessel (J0 as its power series, positive and strictly decreasing up to the constant of the code) and power with positive exponent are normalised cut-offs; the Gaussian is positive, cut off, bounded by its amplitude and decreasing away from its centre; exactly the invalid parameters are rejected. With every operation rounded the linear profile is still zero outside, one at the inner edge, between zero and one and does not increase (C63_rounded, C63_rounded_double)."
  },
  {
   "property": "C64",
   "status": "partial",
   "theorems": [
    "Softlib.C64_avalanche_formula",
    "Softlib.C64_connorHastie_formula",
    "Softlib.C64_even",
    "Softlib.C64_expPitch",
    "Softlib.C64_avalanche",
    "Softlib.C64_refuted_avalanche_zero",
    "Softlib.C64_connorHastie_pos",
    "Softlib.C64_connorHastie_partial",
    "Softlib.C64_refuted_connorHastie",
    "Softlib.C64_refuted_connorHastie_zero",
    "Softlib.C64_cutoff"
   ],
   "note": "Refuted as stated: Connor-Hastie is increasing in |xi| exactly if D p >= 1/2, and divides by zero at xi = 0 or p = 0; the avalanche distribution divides by zero at p = 0. Proved: positive and even everywhere else for admissible parameters, avalanche strictly increasing, exponential pitch increasing exactly if C > 0. Both distributions are the documented formulas (C64_avalanche_formula, C64_connorHastie_formula)."
  },
  {
   "property": "C65",
   "status": "partial",
   "theorems": [
    "Softlib.C65_soft_exact",
    "Softlib.C65_soft_otherwise",
    "Softlib.C65_wrong_type",
    "Softlib.C65_gocode_exact",
    "Softlib.C65_dream_data",
    "Softlib.C65_gocode_otherwise",
    "Softlib.C65_refuted_gocode_null",
    "Softlib.C65_shift",
    "Softlib.C65_soft",
    "Softlib.C65_soft_shapes",
    "Softlib.C65_soft_rejects",
    "Softlib.C65_refuted_null",
    "Softlib.C65_dream",
    "Softlib.C65_gocode",
    "Softlib.C65_luke",
    "Softlib.C65_luke_ends"
   ],
   "note": "Refuted for the default argument (no magnetic field): null pointer dereferenced. With a field, proved for every grid of at most 2^30 radii for SOFT and DREAM, any length for GO+CODE; LUKE conversion included. What GSL requires of the momentum grids (C117) is not part of the acceptance here. C65_soft_shapes says which dimensions of a radius are accepted."
  },
  {
   "property": "C66",
   "status": "proved",
   "theorems": [
    "Softlib.C66_parts_add_up",
    "Softlib.C66_parts_bounded"
   ],
   "note": "Duration in whole milliseconds (Int), as printed; the text form follows from the parts."
  },
  {
   "property": "C67",
   "status": "partial",
   "theorems": [
    "Softlib.C67_vector_compound",
    "Softlib.C67_scalar_compound_partial",
    "Softlib.C67_fill",
    "Softlib.C67_refuted",
    "Softlib.C67_cross_output",
    "Softlib.C67_cross_refuted"
   ],
   "note": "Refuted as stated for scalars that are elements of the vector (v *= v[0]) and for Cross(a, b, a). Proved for all other aliasings."
  },
  {
   "property": "C68",
   "status": "proved",
   "theorems": [
    "Softlib.C68_dense_is_combination",
    "Softlib.C68_dense_order_four",
    "Softlib.C68_cubics_exact"
   ],
   "note": "Exact arithmetic."
  },
  {
   "property": "C69",
   "status": "partial",
   "theorems": [
    "Softlib.C69_matrices_partial",
    "Softlib.C69_multi_always_throws",
    "Softlib.C69_lists_have_no_class",
    "Softlib.C69_multi_double",
    "Softlib.C69_refuted"
   ],
   "note": "Refuted as stated: every integer multi-dimensional array throws (the function body is a throw) and integer lists get no MATLAB_class attribute. Proved for matrices of every number type and for multi-dimensional arrays of doubles."
  },
  {
   "property": "C70",
   "status": "partial",
   "theorems": [
    "Softlib.C70_interp_slots",
    "Softlib.C70_refuted"
   ],
   "note": "Refuted as stated: the array of pointers is overrun exactly if there are more modes than momenta."
  },
  {
   "property": "C71",
   "status": "proved",
   "theorems": [
    "Softlib.C71_table",
    "Softlib.C71_agrees"
   ],
   "note": "At least two modes; C71_agrees assumes the interpolation of a mode takes its nodal value at a node."
  },
  {
   "property": "C72",
   "status": "partial",
   "theorems": [
    "Softlib.C72_rounded",
    "Softlib.C72_refuted_special",
    "Softlib.C72_vector",
    "Softlib.C72_vector_shape",
    "Softlib.C72_verify",
    "Softlib.C72_absent",
    "Softlib.C72_bad_shape"
   ],
   "note": "Refuted as stated: C72_refuted_special (exactly which pairs are accepted with infinities and NaN: a NaN in the vector or in the data agrees with everything, an infinite entry with every value). Proved for finite numbers: C72_verify (rows, exact arithmetic), C72_vector (rows and columns of any length, for any comparison; only the data are read), C72_vector_shape, C72_absent, C72_bad_shape, C72_rounded (rounding changes no verdict: with numbers of a binary format and tolerance 2^-p, accepted exactly if the exact relative difference is at most the tolerance). Overflow and underflow are left out."
  },
  {
   "property": "C73",
   "status": "partial",
   "theorems": [
    "Softlib.C73_refuted_destroy"
   ],
   "note": "Refuted as stated: with any step but the first an interior pointer is released (double build); correct exactly for step 0."
  },
  {
   "property": "C74",
   "status": "partial",
   "theorems": [
    "Softlib.C74_matrix_partial",
    "Softlib.C74_separate_rows_ub",
    "Softlib.C74_refuted",
    "Softlib.C74_list",
    "Softlib.C74_scalar",
    "Softlib.C74_multi"
   ],
   "note": "Refuted as stated: the writers read the matrix as one contiguous block, so rows allocated separately are undefined behaviour. Proved for contiguous rows, all number types, both formats, and every later history of writes; lists, scalars and multi-dimensional arrays without restriction."
  },
  {
   "property": "C75",
   "status": "partial",
   "theorems": [
    "Softlib.C75_read_back_rule",
    "Softlib.C75_mat_marks",
    "Softlib.C75_struct_marks",
    "Softlib.C75_strings_partial",
    "Softlib.C75_refuted"
   ],
   "note": "Refuted as stated: strings come back cut at the first zero byte. C75_read_back_rule gives the exact string for every input; unchanged for strings without zero bytes."
  },
  {
   "property": "C76",
   "status": "partial",
   "theorems": [
    "Softlib.C76_matrix_rule",
    "Softlib.C76_list_rule",
    "Softlib.C76_multi_safe",
    "Softlib.C76_string_safe",
    "Softlib.C76_mat_string_rule",
    "Softlib.C76_refuted",
    "Softlib.C76_reads_partial",
    "Softlib.C76_attribute_iff",
    "Softlib.C76_refuted_attribute"
   ],
   "note": "Refuted as stated: variables of rank 3 or more (or rank 0) read as a matrix or list overrun the buffer or use wrong extents. C76_matrix_rule and C76_list_rule give the exact condition; multi-dimensional arrays and HDF5 strings are always safe. An attribute can be read as a number exactly when it is stored as one double (C76_attribute_iff); a string attribute read as a number is undefined (C76_refuted_attribute)."
  },
  {
   "property": "C77",
   "status": "partial",
   "theorems": [
    "Softlib.C77_missing_variable_partial",
    "Softlib.C77_writes_never_throw_sfile",
    "Softlib.C77_taken_name_throws",
    "Softlib.C77_missing_attribute_throws",
    "Softlib.C77_refuted"
   ],
   "note": "Refuted as stated: HDF5 library exceptions escape from writes and attribute reads. Proved for reading of missing variables; all writers shown to throw the library's own exception instead."
  },
  {
   "property": "C78",
   "status": "partial",
   "theorems": [
    "Softlib.C78_hdf5_scalar",
    "Softlib.C78_hdf5_string",
    "Softlib.C78_hdf5_written_iff",
    "Softlib.C78_names_partial",
    "Softlib.C78_mat_partial",
    "Softlib.C78_mat_string_partial",
    "Softlib.C78_refuted"
   ],
   "note": "Refuted as stated: MAT and SDT files store the attribute under a combined name, so different pairs collide. Proved for HDF5 in full, and for the other formats when the combined names differ."
  },
  {
   "property": "C79",
   "status": "partial",
   "theorems": [
    "Softlib.C79_january_ub",
    "Softlib.C79_header_partial",
    "Softlib.C79_refuted",
    "Softlib.C79_wrong_month"
   ],
   "note": "Refuted as stated: the month name is indexed with tm_mon-1, undefined in January and wrong in all other months. The layout of the header is proved for all dates from February on."
  },
  {
   "property": "C80",
   "status": "partial",
   "theorems": [
    "Softlib.C80_array_partial",
    "Softlib.C80_list_partial",
    "Softlib.C80_scalar_partial",
    "Softlib.C80_scalar_shape",
    "Softlib.C80_not_a_number",
    "Softlib.C80_no_rows_ub",
    "Softlib.C80_list_of_matrix",
    "Softlib.C80_list_no_rows",
    "Softlib.C80_uint64_wraps",
    "Softlib.C80_double_ub",
    "Softlib.C80_refuted"
   ],
   "note": "Refuted as stated: unsigned 64-bit values from 2^63 on are wrapped silently and matrices without rows are undefined. Proved for all values that fit, all number types; rejection of other variables proved."
  },
  {
   "property": "C81",
   "status": "proved",
   "theorems": [
    "Softlib.C81_others_untouched",
    "Softlib.C81_written_exists",
    "Softlib.C81_unwritten_unchanged",
    "Softlib.C81_has_variable_reads"
   ],
   "note": "On the container model of HDF5; MAT attributes count as variables of their combined name."
  },
  {
   "property": "C82",
   "status": "partial",
   "theorems": [
    "Softlib.C82_positions_partial",
    "Softlib.C82_tokens_unchanged",
    "Softlib.C82_file_rule",
    "Softlib.C82_refuted_newline",
    "Softlib.C82_refuted_string",
    "Softlib.C82_refuted_include"
   ],
   "note": "Refuted as stated: words carry the position after the character that ends them (a word at the end of a line names the following line), newlines within strings are not counted, and tokens of an included file name the including file (C82_refuted_newline, C82_refuted_string, C82_refuted_include). Proved exactly for all texts without strings and included files whose comments are ended by a newline: every token stands in the text where it was read, in order, and the stored line and column are given by a rule in terms of that place (C82_positions_partial); the file rule and the agreement with the lexer without positions hold for every text."
  },
  {
   "property": "C83",
   "status": "proved",
   "theorems": [
    "Softlib.C83_reports_exact",
    "Softlib.C83_unclosed_exact",
    "Softlib.C83_undefined_exact",
    "Softlib.C83_no_errors_iff",
    "Softlib.C83_indices",
    "Softlib.C83_messages"
   ],
   "note": "The interpreter with its messages is shown equal to a grammar with error recovery (Recover): success, final exception and undefined behaviour are each characterised exactly (C83_undefined_exact also sharpens C08). The text of each message is kept as its kind and the token types it names."
  },
  {
   "property": "C84",
   "status": "partial",
   "theorems": [
    "Softlib.C84_colours_only",
    "Softlib.C84_reads_back",
    "Softlib.C84_layout",
    "Softlib.C84_refuted_zero",
    "Softlib.C84_line_colours"
   ],
   "note": "Refuted as stated: zero is written 0ms, not the documented 0s (C84_refuted_zero). Everything else is proved for all durations: C84_reads_back, C84_layout (exact text with hours as largest unit, which is what the tracker uses), C84_colours_only and C84_line_colours (whole line). Negative durations are out of scope."
  },
  {
   "property": "C85",
   "status": "partial",
   "theorems": [
    "Softlib.C85_overflow_iff",
    "Softlib.C85_overflow_first",
    "Softlib.C85_no_overflow",
    "Softlib.C85_refuted_overflow",
    "Softlib.C85_estimate_exact",
    "Softlib.C85_first_estimate",
    "Softlib.C85_run",
    "Softlib.C85_run_exact_partial",
    "Softlib.C85_constant",
    "Softlib.C85_last",
    "Softlib.C85_refuted_shrinking",
    "Softlib.C85_refuted_concurrent",
    "Softlib.C85_average"
   ],
   "note": "Refuted as stated: shrinking durations are treated as constant (C85_refuted_shrinking), with concurrent calls the second line can be printed first, which uses the member dt1 before it is set (C85_refuted_concurrent), and a block that takes 40 days longer than the one before overflows 64 bits (C85_refuted_overflow). Proved: the exact value for every sequential run and every durations (C85_run, C85_estimate_exact, C85_first_estimate), hence exactness for constant (C85_constant) and growing progressions (C85_run_exact_partial), zero at the end (C85_last); the exact condition for overflow (C85_overflow_iff, C85_overflow_first), none for a million lines of up to three hours each (C85_no_overflow)."
  },
  {
   "property": "C86",
   "status": "partial",
   "theorems": [
    "Softlib.C86_history_independent",
    "Softlib.C86_is_fromString",
    "Softlib.C86_from_file",
    "Softlib.C86_from_file_fails",
    "Softlib.C86_from_stdin_partial",
    "Softlib.C86_sequence",
    "Softlib.C86_refuted_nul",
    "Softlib.C86_refuted_stdin_twice",
    "Softlib.C86_refuted_leftover_name",
    "Softlib.C86_stdin_memory"
   ],
   "note": "Refuted as stated: the standard input is cut at a NUL, which can even turn a file that loads into an endless loop (C86_refuted_nul); a second load from the standard input writes through a null pointer (C86_refuted_stdin_twice); after a failed load with nested included files no file can be loaded (C86_refuted_leftover_name). Proved: history and source independence for all texts (C86_history_independent, C86_from_file, C86_sequence, C86_from_file_fails), the link to C06-C09 (C86_is_fromString), and the standard input for texts without NUL (C86_from_stdin_partial)."
  },
  {
   "property": "C87",
   "status": "partial",
   "theorems": [
    "Softlib.C87_sdt_session",
    "Softlib.C87_sdt_read_back",
    "Softlib.C87_sdt_update_exact",
    "Softlib.C87_refuted_sdt_update",
    "Softlib.C87_refuted_sdt_missing",
    "Softlib.C87_refuted_sdt_unwritable",
    "Softlib.C87_sdt_reuse",
    "Softlib.C87_refuted_sdt_reuse",
    "Softlib.C87_refuted_sdt_after_error",
    "Softlib.C87_sdt_safe",
    "Softlib.C87_h5_session",
    "Softlib.C87_h5_update",
    "Softlib.C87_h5_update_keeps",
    "Softlib.C87_h5_read",
    "Softlib.C87_h5_failure_reported",
    "Softlib.C87_h5_life_exact",
    "Softlib.C87_refuted_close_twice",
    "Softlib.C87_refuted_destroy",
    "Softlib.C87_refuted_handle_lost",
    "Softlib.C87_create"
   ],
   "note": "Refuted as stated: an SDT file opened for update is overwritten from its beginning (C87_refuted_sdt_update; exact contents in C87_sdt_update_exact); an SDT file that is missing or cannot be opened is not reported and writes to it vanish (C87_refuted_sdt_missing, C87_refuted_sdt_unwritable); an SDT object used for a second file still shows the variables of the first, and after a failed reading ignores the next file (C87_refuted_sdt_reuse, C87_refuted_sdt_after_error); closing an HDF5 or MAT object twice, or destroying it when no file was ever opened, is undefined (C87_refuted_close_twice, C87_refuted_destroy); a file left open is never closed (C87_refuted_handle_lost). Proved: complete write sessions of all formats store exactly what was written and touch nothing else (C87_sdt_session, C87_sdt_read_back, C87_h5_session, C87_h5_read), HDF5 and MAT updates keep everything not written and report failures (C87_h5_update, C87_h5_update_keeps, C87_h5_failure_reported), the exact rules for reuse and for undefined behaviour (C87_sdt_reuse, C87_sdt_safe, C87_h5_life_exact) and the dispatch of Create (C87_create)."
  },
  {
   "property": "C88",
   "status": "partial",
   "theorems": [
    "Softlib.C88_nodes_agree",
    "Softlib.C88_grid",
    "Softlib.C88_refuted_flux",
    "Softlib.C88_refuted_domain",
    "Softlib.C88_domain_circle"
   ],
   "note": "Refuted as stated: the flux array is allocated and passed on without being filled, so that the flux of the numeric field is whatever the memory contained (C88_refuted_flux), and the domain an analytical field constructs makes the construction of both fields undefined (C88_refuted_domain, C46). Proved: agreement of the field in every grid point at a positive radius, at every angle, for all profiles and all grids of at least four by four points, assuming only that the splines reproduce the values at the grid points (C88_nodes_agree), which is proved for those of GSL in C123_node_exact; extent and spacing of the grid, axis, domain, names (C88_grid); the constructed domain is a regular polygon on the circle of the minor radius (C88_domain_circle)."
  },
  {
   "property": "C89",
   "status": "partial",
   "theorems": [
    "Softlib.C89_load_partial",
    "Softlib.C89_table_node",
    "Softlib.C89_reproduces",
    "Softlib.C89_bounded",
    "Softlib.C89_refuted_first_angle",
    "Softlib.C89_refuted_periodic",
    "Softlib.C89_only_equilibria",
    "Softlib.C89_wall_rejected",
    "Softlib.C89_refuted_two_points",
    "Softlib.C89_refuted_empty"
   ],
   "note": "Refuted as stated: when the first point of the last surface is at the height of the axis (table angles starting at 0), FindMaxRadius touches memory outside the arrays (C89_refuted_first_angle); beyond the last table angle the field is extrapolated instead of continued periodically (C89_refuted_periodic); a two-point wall in columns is read as rows (C89_refuted_two_points); a grid without vertical positions is undefined (C89_refuted_empty). Proved: exact loading of every other equilibrium (C89_load_partial), properties of the interpolation (C89_table_node, C89_reproduces, C89_bounded), rejection of everything else (C89_only_equilibria, C89_wall_rejected)."
  },
  {
   "property": "C90",
   "status": "partial",
   "theorems": [
    "Softlib.C90_estimate",
    "Softlib.C90_number_iff",
    "Softlib.C90_nan_iff",
    "Softlib.C90_infinite_iff",
    "Softlib.C90_within_iff",
    "Softlib.C90_zero_iff",
    "Softlib.C90_accepted_steps",
    "Softlib.C90_component_partial",
    "Softlib.C90_good_steps_accepted",
    "Softlib.C90_zero_tolerance",
    "Softlib.C90_last",
    "Softlib.C90_last_none",
    "Softlib.C90_refuted_componentwise"
   ],
   "note": "Refuted as stated: a single component may exceed its tolerance by up to the square root of the number of components; with zero tolerance no step is ever accepted. Everything else is proved, in exact arithmetic, as long as the 32-bit counters do not overflow."
  },
  {
   "property": "C91",
   "status": "proved",
   "theorems": [
    "Softlib.C91_polynomials",
    "Softlib.C91_linear",
    "Softlib.C91_linear_invariants",
    "Softlib.C91_cubics_accepted",
    "Softlib.C91_dense_cubics",
    "Softlib.C91_dense_invariants"
   ],
   "note": "Exact arithmetic; as long as the 32-bit counters do not overflow."
  },
  {
   "property": "C92",
   "status": "partial",
   "theorems": [
    "Softlib.C92_refuted_zero",
    "Softlib.C92_initialize_partial",
    "Softlib.C92_initialize_succeeds",
    "Softlib.C92_refuted_alloc",
    "Softlib.C92_insert_partial",
    "Softlib.C92_refuted_insert_alloc",
    "Softlib.C92_insert_succeeds",
    "Softlib.C92_array_used_twice"
   ],
   "note": "Refuted as stated: with a new array InsertMomentumSpaceDistributionLog (line 299) passes the values instead of the logarithms, so that the distribution is the exponential of the values; with a new array and two radii or more InitializeLog (line 202) computes with values that are not set yet; and with linear interpolation a positive value next to a zero reads zero (C92_refuted_zero). Proved for everything else: the nodes of a radius whose values are all positive have the values, nodes with a value that is not positive have zero. The assumptions on the spline are proved for the linear and the cubic interpolation of GSL (C124_reproduces)."
  },
  {
   "property": "C93",
   "status": "partial",
   "theorems": [
    "Softlib.C93_radii_partial",
    "Softlib.C93_heights_partial",
    "Softlib.C93_refuted_tip",
    "Softlib.C93_refuted_side"
   ],
   "note": "Refuted as stated: at the tips of a closed rhombus the vertical extent is a single height (two sides meet at the tip and only two crossings are looked at), and a side along the height of the axis contributes only its larger radius. Proved for contours of which at most two sides reach the height or radius and none lies along it (and, for the radii, first and last vertex strictly on one side)."
  },
  {
   "property": "C94",
   "status": "partial",
   "theorems": [
    "Softlib.C94_radii_partial",
    "Softlib.C94_refuted_exception",
    "Softlib.C94_refuted_other_contour",
    "Softlib.C94_own_contour",
    "Softlib.C94_unset"
   ],
   "note": "Refuted as stated: SetDomain with a domain around which the axis is not inside throws after replacing the domain and leaves the old radii; FindMaxRadius with a contour as argument replaces the remembered radii. Proved for all sequences without these two; before a domain is set the getters are undefined."
  },
  {
   "property": "C95",
   "status": "partial",
   "theorems": [
    "Softlib.C95_restart_partial",
    "Softlib.C95_refuted"
   ],
   "note": "Refuted as stated: InitialValue does not reset the step-size control (optimal_step, errold, previous_step_rejected), so that the first step after a restart can be ten times the one of a new integrator. Proved: the points depend on the past only through these three members; with equal control the runs agree for every number of steps."
  },
  {
   "property": "C96",
   "status": "partial",
   "theorems": [
    "Softlib.C96_range_partial",
    "Softlib.C96_rejections_end_iff",
    "Softlib.C96_refuted_setters",
    "Softlib.C96_refuted_beta",
    "Softlib.C96_setters",
    "Softlib.C96_memory"
   ],
   "note": "Refuted as stated: the setters accept a smallest factor or safety factor of one or a negative exponent, with which a step is retried for ever; SetExponentBeta leaves alpha. Proved: the range for sensible parameters, and that rejections always end exactly for safe < 1, alpha >= 0 and minscale < 1 (safe > 0). C96_memory says which error is remembered."
  },
  {
   "property": "C97",
   "status": "partial",
   "theorems": [
    "Softlib.C97_values_partial",
    "Softlib.C97_ends",
    "Softlib.C97_refuted",
    "Softlib.C97_never_on"
   ],
   "note": "Refuted as stated: for steps taken without dense output the arrays hold what was there before, for instance values of an earlier run; without any coefficients the arrays are null and reading them is undefined. Proved: requests in steps taken with dense output get the polynomial that joins the stored points, whatever happens in other steps."
  },
  {
   "property": "C98",
   "status": "partial",
   "theorems": [
    "Softlib.C98_ownership_partial",
    "Softlib.C98_balance",
    "Softlib.C98_refuted_leak",
    "Softlib.C98_destroy_iff",
    "Softlib.C98_refuted_shared",
    "Softlib.C98_left_behind",
    "Softlib.C98_clone_iff",
    "Softlib.C98_query_iff"
   ],
   "note": "Refuted as stated: the destructor releases neither the flux array nor the GSL objects nor the arrays of empty contours, so at least five blocks per field are lost (C98_refuted_leak), and an array given as both wall and separatrix is released twice (C98_refuted_shared). Proved for every careful program of any length: no undefined behaviour, every block in exactly one place, and the exact number of lost blocks (C98_ownership_partial, C98_balance, C98_destroy_iff). C98_clone_iff and C98_query_iff say exactly which fields can be cloned and evaluated."
  },
  {
   "property": "C99",
   "status": "partial",
   "theorems": [
    "Softlib.C99_exact",
    "Softlib.C99_level_partial",
    "Softlib.C99_refuted_vertical",
    "Softlib.C99_refuted_beyond"
   ],
   "note": "Refuted as stated: the position along the tile is never checked, so that a segment crossing the cone of a tile beyond its ends is reported (C99_refuted_beyond), and a segment as steep as a tile is always reported (C99_refuted_vertical). Proved: what is reported, exactly, for every wall and segment (C99_exact); for level segments the report is right (C99_level_partial)."
  },
  {
   "property": "C100",
   "status": "partial",
   "theorems": [
    "Softlib.C100_component",
    "Softlib.C100_contour",
    "Softlib.C100_load_partial",
    "Softlib.C100_refuted_outside",
    "Softlib.C100_refuted_scrambled",
    "Softlib.C100_meant"
   ],
   "note": "Refuted as stated: the second dimension is never checked, so that a component with a column too few is read outside of its array (C100_refuted_outside), three numbers are accepted for a grid of four points and surplus columns are dropped (C100_refuted_scrambled). Proved: for every grid, every shape and every content, exactly when the reading is undefined, exactly when it succeeds, and which entry is used at each point (C100_load_partial, C100_component, C100_contour); the two shapes that are meant are read rightly (C100_meant)."
  },
  {
   "property": "C101",
   "status": "partial",
   "theorems": [
    "Softlib.C101_undefined_iff",
    "Softlib.C101_starved_iff",
    "Softlib.C101_not_misread",
    "Softlib.C101_opens_iff",
    "Softlib.C101_safe_partial",
    "Softlib.C101_sizes",
    "Softlib.C101_refuted_no_rows",
    "Softlib.C101_refuted_overflow",
    "Softlib.C101_refuted_allocation"
   ],
   "note": "Refuted as stated: a matrix without rows is undefined (C101_refuted_no_rows), the number of elements is computed modulo 2^64 so that two rows of 2^63 numbers are written into an empty array (C101_refuted_overflow), and a negative or huge size ends in std::bad_alloc (C101_refuted_allocation). Proved for every text, number format and allocator: exactly when opening is undefined (C101_undefined_iff), exactly when memory runs out (C101_starved_iff), exactly when it succeeds (C101_opens_iff), nothing is misread (C101_not_misread), and files whose matrices have a row and fit in 64 bits are safe (C101_safe_partial)."
  },
  {
   "property": "C102",
   "status": "partial",
   "theorems": [
    "Softlib.C102_overwrite_loses_nothing",
    "Softlib.C102_step",
    "Softlib.C102_ownership_partial",
    "Softlib.C102_nothing_left",
    "Softlib.C102_values",
    "Softlib.C102_copy",
    "Softlib.C102_refuted_copied_object",
    "Softlib.C102_refuted_same_list",
    "Softlib.C102_destroy_iff"
   ],
   "note": "Refuted as stated: the class has the copy constructor of the compiler, so an object and its copy release the same list (C102_refuted_copied_object), and setting the list already held releases it and keeps it (C102_refuted_same_list). Proved for every program of any length that hands each list over once and uses Copy: nothing undefined, every list in exactly one place (C102_ownership_partial), nothing left at the end (C102_nothing_left), exceptions lose nothing and change nothing (C102_overwrite_loses_nothing, C102_step), and the exact values after each operation (C102_values, C102_copy)."
  },
  {
   "property": "C103",
   "status": "partial",
   "theorems": [
    "Softlib.C103_same_interpreter",
    "Softlib.C103_settings",
    "Softlib.C103_made",
    "Softlib.C103_document",
    "Softlib.C103_distinct_document_partial",
    "Softlib.C103_balance_partial",
    "Softlib.C103_refuted_reload",
    "Softlib.C103_refuted_destroyed",
    "Softlib.C103_refuted_unclosed"
   ],
   "note": "Refuted as stated: the destructor releases nothing and every load loses the tree held before, so more than n objects remain after n loads of any kind (C103_refuted_destroyed, C103_refuted_reload), and a document that leaves a block open loses its tokens and all that was made (C103_refuted_unclosed). Proved for every stream: no setting is ever lost by the interpreter (C103_settings), accepted streams make one block per '{' and one setting per '=' (C103_made, C103_document), documents that define nothing twice lose nothing (C103_distinct_document_partial), and the exact balance for every history of loads (C103_balance_partial). Texts refused by the lexer are not covered."
  },
  {
   "property": "C104",
   "status": "partial",
   "theorems": [
    "Softlib.C104_careful_partial",
    "Softlib.C104_tidy_partial",
    "Softlib.C104_refuted_leak",
    "Softlib.C104_delete",
    "Softlib.C104_destroy",
    "Softlib.C104_refuted_clone",
    "Softlib.C104_refuted_clone_all",
    "Softlib.C104_refuted_unknown",
    "Softlib.C104_refuted_gocode",
    "Softlib.C104_refuted_gocode_new",
    "Softlib.C104_refuted_reload",
    "Softlib.C104_dead",
    "Softlib.C104_eval"
   ],
   "note": "Refuted as stated: the destructor leaves three blocks for each distribution loaded and one for each clone, exactly (C104_refuted_leak); Destroy on one of two objects with the same array makes evaluating or destroying the other undefined (C104_refuted_clone, C104_refuted_clone_all for every size); an unknown interpolation type throws and leaves an object that cannot be destroyed (C104_refuted_unknown); loading twice loses the first (C104_refuted_reload); a GO+CODE distribution releases one block only, and cannot be destroyed before it was loaded (C104_refuted_gocode, C104_refuted_gocode_new). Proved for every sequence of operations that looks at who shares what: nothing is released twice or used after release (C104_careful_partial); without clones and with Destroy first, everything is released exactly once (C104_tidy_partial)."
  },
  {
   "property": "C105",
   "status": "proved",
   "theorems": [
    "Softlib.C105_clones",
    "Softlib.C105_same_pitch",
    "Softlib.C105_shared"
   ],
   "note": "C105_clones: for every schedule the values returned are a prefix of the right ones, no thread reaches undefined behaviour, and a thread that has been given 4n+10 steps per evaluation (n modes) has returned all its values, whatever the others do. The clones are needed: C105_shared is a schedule of two threads on one object with a wrong value. C105_same_pitch: one object can be shared while all evaluations are at the pitch it remembers. The accelerator of GSL is not modelled."
  },
  {
   "property": "C106",
   "status": "partial",
   "theorems": [
    "Softlib.C106_crosses",
    "Softlib.C106_crosses_finite",
    "Softlib.C106_intersects",
    "Softlib.C106_intersects_finite",
    "Softlib.C106_colour",
    "Softlib.C106_colour_finite",
    "Softlib.C106_profile",
    "Softlib.C106_profile_finite",
    "Softlib.C106_constructors_accept",
    "Softlib.C106_linear_bounds",
    "Softlib.C106_distribution",
    "Softlib.C106_distribution_finite",
    "Softlib.C106_table",
    "Softlib.C106_table_finite",
    "Softlib.C106_code",
    "Softlib.C106_analytic",
    "Softlib.C106_analytic_finite",
    "Softlib.C106_numeric",
    "Softlib.C106_numeric_finite",
    "Softlib.C106_numeric_height",
    "Softlib.C106_refuted",
    "Softlib.C106_partial"
   ],
   "note": "Refuted as stated: C106_refuted. What is computed, for every wall, table and parameter: CrossesDomain says `not crossed` as soon as a coordinate is NaN or infinite (C106_crosses), and so does IntersectsDomain3D for NaN (C106_intersects); the colour of a value that is NaN or infinite is undefined behaviour (C106_colour); a power profile with exponent zero is 0 at NaN (C106_profile) and a logarithmic table is 0 (C106_table). The constructors of the profiles accept bounds that are NaN (C106_constructors_accept). C106_partial: the fields, the other profiles, the tabulated distributions, the other tables (and CODE, C106_code) are NaN. The C106_*_finite theorems say that on numbers the functions are those of the other claims. The splines and the Bessel function of GSL are assumed to give NaN for NaN; the sign of zero is not modelled."
  },
  {
   "property": "C107",
   "status": "partial",
   "theorems": [
    "Softlib.C107_vector",
    "Softlib.C107_derivatives",
    "Softlib.C107_copy",
    "Softlib.C107_flux",
    "Softlib.C107_vector_overwritten",
    "Softlib.C107_copy_overwritten",
    "Softlib.C107_destroyed",
    "Softlib.C107_converted",
    "Softlib.C107_refuted",
    "Softlib.C107_numeric_vector"
   ],
   "note": "Refuted as stated: C107_refuted (EvalDerivatives of a numerical field overwrites the vector returned by Eval; a copied result shares the Jacobian with the object, so that it changes with the next evaluation and dangles after destruction). Proved for every program: C107_vector, C107_derivatives, C107_flux (exactly which later operations matter for each result), C107_copy (for copies), and what is shown afterwards: C107_vector_overwritten (also by ToNumeric2D), C107_copy_overwritten, C107_destroyed (undefined; the Jacobian of an analytical field is never released). Released memory is not used again in the model."
  },
  {
   "property": "C108",
   "status": "partial",
   "theorems": [
    "Softlib.C108_pointer",
    "Softlib.C108_room",
    "Softlib.C108_moved",
    "Softlib.C108_restart",
    "Softlib.C108_fresh",
    "Softlib.C108_last",
    "Softlib.C108_refuted"
   ],
   "note": "Refuted as stated: C108_refuted (the pointer to the initial value can be used during 999 steps; one more step reallocates the array and, if the allocator moves it, the pointer dangles). Proved for every history: C108_pointer (valid with the same contents during every number of steps that fits into the memory allocated so far, and for ever if no reallocation moves), C108_room (that memory: after m steps the next multiple of 1000 above m), C108_moved (after a move the old pointers are undefined for ever), C108_restart (what old pointers show after a new initial value: new entries first, the old ones behind them), C108_fresh, C108_last (pointers obtained anew always show the entries of the present run). Released memory is not used again in the model."
  },
  {
   "property": "C109",
   "status": "partial",
   "theorems": [
    "Softlib.C109_settings_partial",
    "Softlib.C109_blocks_partial",
    "Softlib.C109_calls_partial",
    "Softlib.C109_released",
    "Softlib.C109_shows",
    "Softlib.C109_add_iff",
    "Softlib.C109_refuted",
    "Softlib.C109_destroy_iff"
   ],
   "note": "Refuted as stated: C109_refuted (giving a block a setting it already has deletes that setting; the pointer returned and the one kept dangle). Proved for every history that takes two precautions: C109_settings_partial, C109_blocks_partial (the same object for the name, live), C109_shows (an earlier pointer shows the values of a new definition), C109_calls_partial (no call but a destruction is undefined), C109_released (exactly what each call releases). The precautions are shown to be necessary: C109_add_iff, C109_destroy_iff. Settings of scripts only; that destruction itself is not a double free is C15."
  },
  {
   "property": "C110",
   "status": "partial",
   "theorems": [
    "Softlib.C110_load_partial",
    "Softlib.C110_safe_partial",
    "Softlib.C110_momentum_partial",
    "Softlib.C110_refuted_radii",
    "Softlib.C110_order",
    "Softlib.C110_refuted_values",
    "Softlib.C110_refuted_wrap",
    "Softlib.C110_refuted_empty",
    "Softlib.C110_refuted_slice",
    "Softlib.C110_scale",
    "Softlib.C110_incomplete"
   ],
   "note": "Refuted as stated: C110_refuted_wrap (the products of the numbers of grid points are 32-bit: 65536 momenta and 65537 pitches pass with 65536 values, and the verification reads outside them), C110_refuted_empty (empty grid), C110_refuted_radii and C110_refuted_values (the distribution made from a file lacks the first radius: values appear one radius too far out). Proved for every file with non-empty grids whose number of values fits into 32 bits, with rounding: C110_load_partial (loaded exactly if complete, verified and with a known unit; the contents), C110_safe_partial (no undefined behaviour, everything else is an exception), C110_momentum_partial (the values of one radius). Build with double."
  },
  {
   "property": "C111",
   "status": "partial",
   "theorems": [
    "Softlib.C111_load_partial",
    "Softlib.C111_safe_partial",
    "Softlib.C111_radii",
    "Softlib.C111_radius_error",
    "Softlib.C111_momentum_partial",
    "Softlib.C111_refuted_radii",
    "Softlib.C111_refuted_rounded",
    "Softlib.C111_refuted_collapse",
    "Softlib.C111_refuted_truncated",
    "Softlib.C111_refuted_field",
    "Softlib.C111_incomplete",
    "Softlib.C111_incomplete_load"
   ],
   "note": "Refuted as stated: C111_refuted_radii (the distribution made from a file lacks the first radius), C111_refuted_rounded and C111_refuted_collapse (different radii can coincide after the mapping, and the file is then rejected; radius 1 need not become the largest radius), C111_refuted_truncated (a grid of 2^32+1 radii counts as one), C111_refuted_field (null field). Proved for every file with fewer than 2^32 points in each grid, with rounding: C111_load_partial (loaded exactly if complete; the contents), C111_safe_partial (no undefined behaviour, everything else is an exception), C111_radii (radius 0 is the axis, order kept), C111_radius_error (bound of the rounding error of a radius), C111_momentum_partial (values of one radius, if their total number fits into 32 bits). Build with double."
  },
  {
   "property": "C112",
   "status": "partial",
   "theorems": [
    "Softlib.C112_auto",
    "Softlib.C112_named",
    "Softlib.C112_refuted",
    "Softlib.C112_refuted_ending"
   ],
   "note": "Refuted as stated: C112_refuted (std::out_of_range instead of SOFTLibException, exactly for existing full paths of at most four characters), C112_refuted_ending (only the ending is compared: ref_re is read on the runaway grid). Proved for every name and file: C112_auto (no name given), C112_named (accepted exactly if the variable exists and its name ends in f_re or f_hot, with the grid of that ending)."
  },
  {
   "property": "C113",
   "status": "partial",
   "theorems": [
    "Softlib.C113_luke",
    "Softlib.C113_depr",
    "Softlib.C113_dream_partial",
    "Softlib.C113_luke_momentum",
    "Softlib.C113_depr_momentum",
    "Softlib.C113_refuted_soft",
    "Softlib.C113_refuted_leak",
    "Softlib.C113_refuted_size"
   ],
   "note": "Refuted as stated: C113_refuted_soft (every SOFT file with a radius: the array of rows of f, made by new[], is released by delete, which is undefined), C113_refuted_leak (a LUKE file with three radii leaves 22 blocks). Proved exactly, for every number of radii and every place of an exception: C113_luke, C113_depr, C113_dream_partial (no undefined release; which blocks are left after loading and destroying; the file object is left after every exception), C113_luke_momentum, C113_depr_momentum. DREAM for the first time step only: for the others the release is undefined (C73)."
  },
  {
   "property": "C114",
   "status": "proved",
   "theorems": [
    "Softlib.C114_loaded",
    "Softlib.C114_merged",
    "Softlib.C114_merged_known",
    "Softlib.C114_number"
   ],
   "note": "C114_loaded, C114_merged, C114_merged_known, C114_number. The value of a number text is the text matched by stod; its rounding to a double is that of the C library."
  },
  {
   "property": "C115",
   "status": "partial",
   "theorems": [
    "Softlib.C115_soft_partial",
    "Softlib.C115_dream_partial",
    "Softlib.C115_soft_between_partial",
    "Softlib.C115_soft_one",
    "Softlib.C115_refuted_zero"
   ],
   "note": "Refuted as stated: a file whose first radius lies at major radius zero is accepted and evaluation there divides by zero (C115_refuted_zero); LUKE and old SOFT files are refuted under C110 and C111. Proved for SOFT and DREAM files with at least two radii whose first radius is not at zero (C115_soft_partial, C115_dream_partial, C115_soft_between_partial), for one radius away from position zero (C115_soft_one). The tables are assumed to be accepted by GSL; the assumption on the spline is proved for the linear and the cubic interpolation of GSL (C124_table_exact)."
  },
  {
   "property": "C116",
   "status": "partial",
   "theorems": [
    "Softlib.C116_formatted",
    "Softlib.C116_sites_partial",
    "Softlib.C116_exception_partial",
    "Softlib.C116_verbatim",
    "Softlib.C116_integers",
    "Softlib.C116_exchange",
    "Softlib.C116_sign_partial",
    "Softlib.C116_refuted_sign",
    "Softlib.C116_mismatch",
    "Softlib.C116_refuted_sizes",
    "Softlib.C116_filename_iff",
    "Softlib.C116_refuted_filename"
   ],
   "note": "Refuted as stated: 32-bit numbers for %llu and 64-bit numbers for %u (C116_refuted_sizes), unsigned numbers above 2147483647 for %d (C116_refuted_sign), file names with percent signs inside a format (C116_refuted_filename, exactly then by C116_filename_iff), messages of 1000 characters (C31). Proved for all other places and all arguments (C116_sites_partial, C116_exception_partial), and for any template and arguments (C116_formatted, C116_mismatch); the text of a whole number reads back as the number (C116_integers)."
  },
  {
   "property": "C117",
   "status": "partial",
   "theorems": [
    "Softlib.C117_cell",
    "Softlib.C117_between",
    "Softlib.C117_bounds",
    "Softlib.C117_node",
    "Softlib.C117_table_exact",
    "Softlib.C117_nan",
    "Softlib.C117_log_cell",
    "Softlib.C117_log_node_partial",
    "Softlib.C117_refuted_log",
    "Softlib.C117_reproduces",
    "Softlib.C117_outcomes",
    "Softlib.C117_refuted_abort"
   ],
   "note": "Refuted as stated: in a logarithmic table a node whose neighbour is zero reads zero, whatever is stored there (C117_refuted_log; exactly what happens in each cell is C117_log_cell), and grids with ends in order that are not increasing, or with one point, abort the program instead of throwing (C117_refuted_abort, C117_outcomes). Proved for the rest: C117_cell (in every cell that contains the point), C117_between, C117_bounds, C117_node, C117_log_node_partial, and that the assumptions on the spline in C92 and C115 hold for linear interpolation (C117_reproduces, C117_table_exact)."
  },
  {
   "property": "C118",
   "status": "partial",
   "theorems": [
    "Softlib.C118_inside_partial",
    "Softlib.C118_below_iff",
    "Softlib.C118_above_iff",
    "Softlib.C118_soft_partial",
    "Softlib.C118_refuted_extrapolation"
   ],
   "note": "Refuted as stated: extrapolation beyond the first and the last radius, which the readers always allow, gives negative values (C118_refuted_extrapolation). Proved between the first and the last radius (C118_inside_partial, C118_soft_partial), and exactly when the extrapolated values are non-negative (C118_below_iff, C118_above_iff)."
  },
  {
   "property": "C119",
   "status": "partial",
   "theorems": [
    "Softlib.C119_splines",
    "Softlib.C119_refuted_grid",
    "Softlib.C119_refuted_short",
    "Softlib.C119_outcomes",
    "Softlib.C119_constructor",
    "Softlib.C119_loaded_arrays",
    "Softlib.C119_file",
    "Softlib.C119_luke_arrays",
    "Softlib.C119_luke",
    "Softlib.C119_convert",
    "Softlib.C119_clone",
    "Softlib.C119_field",
    "Softlib.C119_flux_partial",
    "Softlib.C119_refuted_flux"
   ],
   "note": "Refuted as stated: grids with fewer than four points in a direction, or that do not increase, end the program (C119_refuted_grid, C119_file, C119_luke, C119_convert), and so does asking for the flux outside of the grid (C119_refuted_flux), where the field itself is given. Arrays that are too short are read beyond their end (C119_refuted_short). Proved: exactly which grids are accepted, and that the field and its derivatives are given everywhere (C119_outcomes, C119_constructor, C119_field, C119_flux_partial)."
  },
  {
   "property": "C120",
   "status": "partial",
   "theorems": [
    "Softlib.C120_linear_partial",
    "Softlib.C120_nodes_partial",
    "Softlib.C120_outcomes",
    "Softlib.C120_types",
    "Softlib.C120_refuted_order",
    "Softlib.C120_refuted_single",
    "Softlib.C120_refuted_temperature",
    "Softlib.C120_time",
    "Softlib.C120_only"
   ],
   "note": "Refuted as stated: files whose momenta do not increase, or with too few of them, end the program (C120_refuted_order, C120_outcomes), a single mode is read beyond its end when evaluated (C120_refuted_single), more modes than momenta write beyond an array (C120_outcomes), and a temperature that is not positive gives values that are no numbers (C120_refuted_temperature). Proved: exactly which files are loaded (C120_outcomes, C120_only, C120_time), and of these with two modes or more the value is that stated, cut off below at zero, everywhere with linear interpolation (C120_linear_partial) and at the stored momenta with any interpolation that passes through them (C120_nodes_partial)."
  },
  {
   "property": "C121",
   "status": "partial",
   "theorems": [
    "Softlib.C121_values_partial",
    "Softlib.C121_outside_exact",
    "Softlib.C121_names",
    "Softlib.C121_limits",
    "Softlib.C121_refuted_single",
    "Softlib.C121_refuted_zero",
    "Softlib.C121_refuted_order",
    "Softlib.C121_only",
    "Softlib.C121_modes_partial",
    "Softlib.C121_nodes"
   ],
   "note": "Refuted as stated: outside of the radii, also below the first one, the value is made of the last two distributions with a wrong slope (C121_outside_exact); one radius is undefined (C121_refuted_single); a first radius at zero gives no numbers up to the second (C121_refuted_zero); momenta that do not increase end the program (C121_refuted_order). Proved: the value between the first and the last radius after any history, for the object and its clones (C121_values_partial; with every other type of interpolation C121_modes_partial and C121_nodes), and what files are loaded (C121_only, C120_only)."
  },
  {
   "property": "C122",
   "status": "proved",
   "theorems": [
    "Softlib.C122_cell",
    "Softlib.C122_history",
    "Softlib.C122_parallel",
    "Softlib.C122_shared_vector",
    "Softlib.C122_shared_cell",
    "Softlib.C122_tables",
    "Softlib.C122_end"
   ],
   "note": "C122_cell (the accelerated search), C122_history (one field, any order of evaluations), C122_parallel (any number of threads with fields of their own, clones or clones of clones of one field: every thread gets a prefix of the right results, and all of them when it was given enough steps and nobody ended the process), C122_tables (the same for tables). That the clones are needed: with one field shared by two threads some schedule gives the first thread the field at the other thread's point (C122_shared_vector) or the flux from the polynomial of another cell (C122_shared_cell)."
  },
  {
   "property": "C123",
   "status": "proved",
   "theorems": [
    "Softlib.C123_spline_unique",
    "Softlib.C123_mixed",
    "Softlib.C123_row",
    "Softlib.C123_column",
    "Softlib.C123_smooth",
    "Softlib.C123_interval",
    "Softlib.C123_nodes",
    "Softlib.C123_bilinear",
    "Softlib.C123_node_exact",
    "Softlib.C123_field_nodes",
    "Softlib.C123_derivatives",
    "Softlib.C123_field_bilinear",
    "Softlib.C123_pivots",
    "Softlib.C123_curvature",
    "Softlib.C123_sides"
   ],
   "note": "The splines are no parameter here: cspline.c, tridiag.c and bicubic.c of GSL are written out. C123_pivots, C123_curvature, C123_sides (the system of the natural cubic spline is solved), C123_interval, C123_row and C123_column (along the lines of the grid the value is the natural cubic spline through what is stored, and the derivative across them the spline through the derivatives), C123_spline_unique, C123_mixed (mixed derivatives do not depend on the order), C123_smooth, C123_nodes, C123_bilinear (interpolation), C123_field_nodes, C123_derivatives, C123_field_bilinear (fields). The assumptions on splines in C52 and C88 hold for it (C123_smooth, C123_node_exact)."
  },
  {
   "property": "C124",
   "status": "partial",
   "theorems": [
    "Softlib.C124_numbers",
    "Softlib.C124_spreads",
    "Softlib.C124_finite",
    "Softlib.C124_reproduces",
    "Softlib.C124_table_exact",
    "Softlib.C124_table_partial",
    "Softlib.C124_log_partial",
    "Softlib.C124_refuted_zero",
    "Softlib.C124_refuted_negative"
   ],
   "note": "Refuted as stated: in a logarithmic table a single zero makes the whole distribution zero, at every point (C124_refuted_zero; the NaN spreads over all cells, C124_spreads), and plain non-negative tables give negative values between the nodes (C124_refuted_negative). Proved for the rest: stored values at the nodes and differentiability (C124_table_partial), stored values and positive values for logarithms of positive values (C124_log_partial), never infinite (C124_finite), equal to the interpolation of fields of C123 (C124_numbers). The assumptions on the spline in C92 and C115 hold for linear and for cubic interpolation (C124_reproduces, C124_table_exact)."
  },
  {
   "property": "C125",
   "status": "partial",
   "theorems": [
    "Softlib.C125_values",
    "Softlib.C125_akima_parabola",
    "Softlib.C125_akima_periodic",
    "Softlib.C125_akima_joins",
    "Softlib.C125_steffen_parabola",
    "Softlib.C125_steffen_first",
    "Softlib.C125_nodes",
    "Softlib.C125_spline",
    "Softlib.C125_steffen_smooth",
    "Softlib.C125_polynomial_smooth",
    "Softlib.C125_steffen_between",
    "Softlib.C125_refuted_akima",
    "Softlib.C125_refuted_linear",
    "Softlib.C125_refuted_between",
    "Softlib.C125_file_partial",
    "Softlib.C125_convert_partial",
    "Softlib.C125_convert_log_partial",
    "Softlib.C125_periodic"
   ],
   "note": "Refuted as stated: linear and Akima interpolation have corners (C125_refuted_linear, C125_refuted_akima), cubic splines and polynomials leave the range of the stored values and become negative (C125_refuted_between), and a plain table keeps negative sums where the distribution is zero (C125_convert_partial gives both values). Proved for the rest: stored values with every type (C125_nodes, C125_file_partial), the value at every other momentum as the positive part of the sum of the interpolated modes (C125_values), the cubic spline twice differentiable with vanishing curvature at the ends (C125_spline), the periodic one twice differentiable with equal curvatures at both ends, and equal slopes unless there are three momenta with different end values (C125_periodic), Steffen's interpolation and polynomials differentiable (C125_steffen_smooth, C125_polynomial_smooth), Steffen's between the neighbours (C125_steffen_between; linear: C120_linear_partial), conversion (C125_convert_partial, C125_convert_log_partial). This discharges the assumption on the interpolation in C120_nodes_partial. Reproduction: Akima's interpolation of a parabola on an equally spaced grid is that parabola, ends included (C125_akima_parabola); the periodic one has the same slope at both ends (C125_akima_periodic); Steffen's has the slope of the parabola through three neighbours where it is not limited (C125_steffen_parabola) and of the first interval at the first node (C125_steffen_first)."
  },
  {
   "property": "C126",
   "status": "partial",
   "theorems": [
    "Softlib.C126_exact",
    "Softlib.C126_nonneg",
    "Softlib.C126_between_partial",
    "Softlib.C126_error",
    "Softlib.C126_error_double",
    "Softlib.C126_node",
    "Softlib.C126_border",
    "Softlib.C126_refuted_between",
    "Softlib.C126_dist_partial",
    "Softlib.C126_refuted_first"
   ],
   "note": "Refuted as stated: in double a table of ones yields 1 + 2^-52 and 1 - 2^-53 (C126_refuted_between), and in the first radial interval tables of zeros and ones yield a negative number (C126_refuted_first). Proved for every rounding: the stored value at every node (C126_node), never negative (C126_nonneg), between the stored values up to seven roundings (C126_between_partial), the same on both sides of a border (C126_border), an error of at most 20 * 2^-53 of the largest value for double (C126_error, C126_error_double), and the bounds between two radii after the first interval (C126_dist_partial). Without rounding the model is that of C117 (C126_exact). Overflow, underflow and logarithmic tables are left out."
  },
  {
   "property": "C127",
   "status": "partial",
   "theorems": [
    "Softlib.C127_in_place_partial",
    "Softlib.C127_load_partial",
    "Softlib.C127_missing",
    "Softlib.C127_inserted",
    "Softlib.C127_depth",
    "Softlib.C127_terminates",
    "Softlib.C127_refuted_value",
    "Softlib.C127_refuted_comment",
    "Softlib.C127_refuted_string",
    "Softlib.C127_refuted_name"
   ],
   "note": "Refuted as stated: a file cannot stand for a value (C127_refuted_value), the last character of a comment at the end of an included file becomes a word (C127_refuted_comment), a string left open in a file goes on in the including text (C127_refuted_string), and names with # or two blanks cannot be included (C127_refuted_name). Proved for every nesting of files, wherever the words before a mark do not end with =, a value or a block type and included files end outside strings and comments (Expands): the same outcome of the lexer (C127_in_place_partial) and of loading (C127_load_partial), termination (C127_terminates), the exception for a missing file (C127_missing). Wherever a mark stands, the tokens of the file read by itself are inserted (C127_inserted). The depth admitted by the model has no influence once it suffices (C127_depth)."
  },
  {
   "property": "C128",
   "status": "partial",
   "theorems": [
    "Softlib.C128_bounds_partial",
    "Softlib.C128_radii_partial",
    "Softlib.C128_settled_partial",
    "Softlib.C128_remembered_partial",
    "Softlib.C128_alone",
    "Softlib.C128_warm_partial",
    "Softlib.C128_calls",
    "Softlib.C128_ends",
    "Softlib.C128_not_inside",
    "Softlib.C128_refuted_race",
    "Softlib.C128_refuted_value",
    "Softlib.C128_refuted_again"
   ],
   "note": "Refuted as stated: two threads calling GetDomainBounds on any field whose bounds are not known reach a data race (C128_refuted_race); on a new field a thread can get the smallest radius from GetMaxRadius while another computes them (C128_refuted_value), also when they were known and a thread calls FindMaxRadius (C128_refuted_again). Proved for every number of threads and every interleaving: with everything known the getters write nothing, do not race and are right (C128_warm_partial); with accesses in one order for all threads, bounds are always right (C128_bounds_partial), radii are right or the first crossing (C128_radii_partial), and what is remembered when no call is in progress is right (C128_settled_partial). A thread alone always gets the right answers (C128_alone). Ended calls leave their answers behind (C128_remembered_partial); no call is lost (C128_calls) and each ends after at most 17 steps of its own thread (C128_ends); without a crossing every call for a radius throws (C128_not_inside)."
  },
  {
   "property": "C129",
   "status": "partial",
   "theorems": [
    "Softlib.C129_png",
    "Softlib.C129_png_exceptions",
    "Softlib.C129_live",
    "Softlib.C129_refuted_leak",
    "Softlib.C129_released_partial",
    "Softlib.C129_refuted_handle",
    "Softlib.C129_refuted_silent",
    "Softlib.C129_refuted_flush",
    "Softlib.C129_refuted_default",
    "Softlib.C129_complete_partial",
    "Softlib.C129_outcomes",
    "Softlib.C129_refuted_grows"
   ],
   "note": "Refuted as stated: every call with a known format leaves both built-in colour maps allocated, however it ends (C129_refuted_leak), so memory grows with the number of calls (C129_refuted_grows); an exception of libpng leaves the file open and the generator allocated (C129_refuted_handle); a PPM file that cannot be written and the last bytes of a PNG file are not reported (C129_refuted_silent, C129_refuted_flush); the default colour map is the null pointer, undefined for every image with a pixel (C129_refuted_default). Proved: exactly what is live after every way a call can end (C129_live, C129_png, C129_png_exceptions); a call that returns has released the generator, the file and everything of libpng (C129_released_partial); it has written the complete file if the file could be written (C129_complete_partial); exactly when it is undefined and which exceptions arguments cause (C129_outcomes)."
  },
  {
   "property": "C130",
   "status": "partial",
   "theorems": [
    "Softlib.C130_numeric",
    "Softlib.C130_numeric_made",
    "Softlib.C130_refuted_no_contour",
    "Softlib.C130_refuted_leak",
    "Softlib.C130_refuted_exceptions",
    "Softlib.C130_refuted_luke_destructor",
    "Softlib.C130_luke",
    "Softlib.C130_luke_wall",
    "Softlib.C130_save",
    "Softlib.C130_save_iff",
    "Softlib.C130_refuted_save",
    "Softlib.C130_refuted_reload"
   ],
   "note": "Refuted as stated: every load that does not end at once leaves the file object and, if it succeeds, the objects of GSL (C130_numeric, C130_refuted_leak); exceptions leave everything allocated so far (C130_refuted_exceptions, C130_refuted_no_contour); every exception while a LUKE equilibrium is read makes the destructor of the base part read the uninitialised nwall (C130_refuted_luke_destructor); loading again leaves the arrays of the load before (C130_refuted_reload); saving leaves the file object (C130_refuted_save). Proved: nothing is released twice or wrongly, and exactly which blocks are left after loading and destroying, for every file (C130_numeric, C130_numeric_made, C130_luke, C130_luke_wall) and after saving (C130_save)."
  },
  {
   "property": "C131",
   "status": "partial",
   "theorems": [
    "Softlib.C131_divide_one",
    "Softlib.C131_divide_minus_one",
    "Softlib.C131_refuted_divide",
    "Softlib.C131_refuted_quotient",
    "Softlib.C131_divide_zero",
    "Softlib.C131_norm",
    "Softlib.C131_norm_bounds",
    "Softlib.C131_normalize",
    "Softlib.C131_refuted_normalize",
    "Softlib.C131_dot",
    "Softlib.C131_dot_sound",
    "Softlib.C131_refuted_dot",
    "Softlib.C131_add",
    "Softlib.C131_multiply",
    "Softlib.C131_convert",
    "Softlib.C131_convert_part",
    "Softlib.C131_round_trip",
    "Softlib.C131_root",
    "Softlib.C131_complex_norm",
    "Softlib.C131_complex_normalize",
    "Softlib.C131_complex_dot",
    "Softlib.C131_complex_square",
    "Softlib.C131_refuted_complex"
   ],
   "note": "Refuted as stated: the reciprocal 1.0/s is converted to the element type, so dividing an integer vector by anything but 1 and -1 gives the zero vector (C131_refuted_divide, C131_refuted_quotient) and Normalize does the same to every integer vector of length two or more (C131_normalize, C131_refuted_normalize); Dot does not conjugate, so for complex elements it is the squared norm if and only if all elements are real (C131_complex_square, C131_refuted_complex); whether Dot of integer vectors overflows depends on the order (C131_refuted_dot). Proved: the exact outcome of the remaining divisions (C131_divide_one, C131_divide_minus_one, C131_divide_zero), of Norm (C131_norm, C131_norm_bounds), sums, products and scalar products of integers (C131_add, C131_multiply, C131_dot, C131_dot_sound), of conversions (C131_convert, C131_convert_part, C131_round_trip), and Norm, Normalize and Dot for complex elements (C131_complex_norm, C131_complex_normalize, C131_complex_dot)."
  },
  {
   "property": "C132",
   "status": "partial",
   "theorems": [
    "Softlib.C132_load",
    "Softlib.C132_fits",
    "Softlib.C132_missing",
    "Softlib.C132_value_32",
    "Softlib.C132_value_64",
    "Softlib.C132_value_iff",
    "Softlib.C132_refuted_negative",
    "Softlib.C132_arrays",
    "Softlib.C132_arrays_partial",
    "Softlib.C132_lists",
    "Softlib.C132_refuted_shapes",
    "Softlib.C132_refuted"
   ],
   "note": "Refuted as stated: 2^53+1 comes back as 2^53, INT64_MAX and UINT64_MAX lead to undefined behaviour (C132_refuted); reading a negative number as unsigned does as well (C132_refuted_negative); arrays with one column cannot be read as lists, others are read as their first elements (C132_refuted_shapes). Proved: what a file of integers holds when opened (C132_load); 32-bit integers are always kept (C132_value_32, C132_arrays_partial); 64-bit integers come back as the nearest double, except for the largest 512 or 1024, and unchanged if and only if they are doubles (C132_value_64, C132_value_iff); the same for whole arrays and lists (C132_arrays, C132_lists). A stored number is read exactly when it fits the type (C132_fits), a missing name is an exception (C132_missing)."
  },
  {
   "property": "C133",
   "status": "partial",
   "theorems": [
    "Softlib.C133_text",
    "Softlib.C133_nearest",
    "Softlib.C133_error",
    "Softlib.C133_stable",
    "Softlib.C133_same_iff",
    "Softlib.C133_whole",
    "Softlib.C133_order",
    "Softlib.C133_refuted",
    "Softlib.C133_refuted_grid",
    "Softlib.C133_load",
    "Softlib.C133_rewrite",
    "Softlib.C133_refuted_nonfinite",
    "Softlib.C133_opens_iff",
    "Softlib.C133_reads_integers",
    "Softlib.C133_exact_iff",
    "Softlib.C133_read",
    "Softlib.C133_read_none"
   ],
   "note": "Refuted as stated: 1234567 comes back as 1234570 (C133_refuted); different numbers come back as the same (C133_refuted_grid); a file with an infinite number or one that is not a number cannot be opened at all (C133_refuted_nonfinite). Proved: the text of each finite number is read as the floating point number nearest to the closest decimal of six digits (C133_text, C133_nearest), so files open exactly if all numbers are finite (C133_opens_iff) and hold those numbers (C133_load); the error is at most 5.1 millionths (C133_error), the order is kept (C133_order), a number comes back unchanged exactly if it is the nearest one to a decimal of six digits (C133_same_iff, C133_whole), and from then on nothing changes: writing again what was read gives the same file (C133_stable, C133_rewrite). The reader meets the assumptions of C132 (C133_reads_integers) and, for the numbers that come back, those of C21 (C133_exact_iff)."
  },
  {
   "property": "C134",
   "status": "partial",
   "theorems": [
    "Softlib.C134_exact",
    "Softlib.C134_point",
    "Softlib.C134_outside",
    "Softlib.C134_back",
    "Softlib.C134_inside_partial",
    "Softlib.C134_refuted_axis",
    "Softlib.C134_refuted_axis_rounded",
    "Softlib.C134_refuted_direction",
    "Softlib.C134_refuted_directions",
    "Softlib.C134_refuted_sliver"
   ],
   "note": "Refuted as stated: the magnetic axis itself is reported to be outside (C134_refuted_axis, with rounding C134_refuted_axis_rounded), and so is every point whose direction from the axis is that of a side, with fifty points all points straight above and below the axis, however close (C134_refuted_direction, C134_refuted_directions); between every side and the circle there is a part of the plasma that is reported to be outside (C134_refuted_sliver). Proved: exactly which paths from inside (C134_exact) and which points (C134_point) are reported; points and paths out of the plasma are always reported (C134_outside), so are paths back (C134_back), all other points within the inscribed circle are reported to be inside (C134_inside_partial)."
  },
  {
   "property": "C135",
   "status": "partial",
   "theorems": [
    "Softlib.C135_careful_partial",
    "Softlib.C135_left",
    "Softlib.C135_refuted_leak",
    "Softlib.C135_refuted_overwritten",
    "Softlib.C135_refuted_released",
    "Softlib.C135_reader_partial",
    "Softlib.C135_refuted",
    "Softlib.C135_refuted_undefined",
    "Softlib.C135_refuted_destroyed"
   ],
   "note": "Refuted as stated: the arrays are never released (C135_refuted_leak, C135_refuted_destroyed); a step stored in a copy replaces the one of the original (C135_refuted_overwritten, C135_refuted); the copy of a full integrator is left with an array that has been released (C135_refuted_released, C135_refuted_undefined). Proved: if copies are made only of integrators that have stored nothing, everything is defined and every integrator holds its own history (C135_careful_partial), exactly how much is left in memory (C135_left), and a copy that is only read shows what the original held for as long as the original has room (C135_reader_partial)."
  },
  {
   "property": "C136",
   "status": "partial",
   "theorems": [
    "Softlib.C136_exact",
    "Softlib.C136_exact_dense",
    "Softlib.C136_in_order_partial",
    "Softlib.C136_refuted",
    "Softlib.C136_refuted_dense",
    "Softlib.C136_refuted_first",
    "Softlib.C136_refuted_earlier",
    "Softlib.C136_interval",
    "Softlib.C136_refuted_off"
   ],
   "note": "Refuted as stated: no call that cannot be answered is reported, dense output apart: it is undefined, or gives 0 (LastTime), or a point of an earlier integration (C136_refuted, C136_refuted_first, C136_refuted_earlier); dense output with fewer than two points is undefined or made of the coefficients of an earlier integration, and reported only if a time is beyond its second point (C136_refuted_dense). Proved: exactly which calls are undefined after any sequence of calls (C136_exact, C136_exact_dense); if every call can be answered when it is made, nothing is undefined and all answers belong to the present integration (C136_in_order_partial)."
  },
  {
   "property": "C137",
   "status": "proved",
   "theorems": [
    "Softlib.C137_row",
    "Softlib.C137_step",
    "Softlib.C137_history",
    "Softlib.C137_run",
    "Softlib.C137_proportional",
    "Softlib.C137_exact",
    "Softlib.C137_fifth"
   ],
   "note": "C137_row (each sum), C137_fifth (the last coefficient of dense output), C137_step (one step from approximate values), C137_history and C137_run (whole integrations with the rounded step-size control), C137_proportional (what a step adds is a constant times the unit of rounding), C137_exact (without rounding the model is the step of C35, for the fractions of the source)."
  },
  {
   "property": "C138",
   "status": "partial",
   "theorems": [
    "Softlib.C138_vertical",
    "Softlib.C138_horizontal",
    "Softlib.C138_relative",
    "Softlib.C138_strength",
    "Softlib.C138_linear",
    "Softlib.C138_constant",
    "Softlib.C138_refuted"
   ],
   "note": "Refuted as stated: near the magnetic axis the vertical component can be computed as zero when it is not, whatever hypot does (C138_refuted), because the distance to the axis cancels. Proved instead: the error of the vertical component relative to the size of what cancels (C138_vertical), of the horizontal components (C138_horizontal), of the whole vector relative to its length times an explicit amplification factor (C138_relative, 32 units for constant profiles in C138_constant, the linear profile in C138_linear), and of the strength, relative to its toroidal part times the same factor (C138_strength); accurate_library: libraries of any accuracy exist."
  },
  {
   "property": "C139",
   "status": "proved",
   "theorems": [
    "Softlib.C139_estimate",
    "Softlib.C139_accepted",
    "Softlib.C139_component",
    "Softlib.C139_accepts",
    "Softlib.C139_factor",
    "Softlib.C139_run",
    "Softlib.C139_sharp"
   ],
   "note": "C139_estimate (the estimate), C139_accepted and C139_component (what accepted means), C139_accepts (what is accepted), C139_factor (the size of the factor), C139_run (whole integrations), C139_sharp (the factor cannot be left out)."
  },
  {
   "property": "C140",
   "status": "partial",
   "theorems": [
    "Softlib.C140_settings",
    "Softlib.C140_value",
    "Softlib.C140_last_written",
    "Softlib.C140_sub_blocks",
    "Softlib.C140_found",
    "Softlib.C140_types",
    "Softlib.C140_untouched",
    "Softlib.C140_equality",
    "Softlib.C140_copy",
    "Softlib.C140_copy_untouched",
    "Softlib.C140_refuted_equality",
    "Softlib.C140_refuted_copy",
    "Softlib.C140_refuted_no_values"
   ],
   "note": "Refuted as stated: == compares type and name only (C140_refuted_equality), copies forget what was read (C140_refuted_copy), and a setting without values is there but asking for it throws std::out_of_range (C140_refuted_no_values). All other answers agree (C140_settings, C140_value, C140_last_written, C140_sub_blocks, C140_found, C140_types, C140_untouched, C140_equality, C140_copy)."
  },
  {
   "property": "C141",
   "status": "proved",
   "theorems": [
    "Softlib.C141_radius",
    "Softlib.C141_field",
    "Softlib.C141_jacobian",
    "Softlib.C141_curl",
    "Softlib.C141_length",
    "Softlib.C141_strength",
    "Softlib.C141_nan",
    "Softlib.C141_gradient",
    "Softlib.C141_units",
    "Softlib.C141_whole"
   ],
   "note": "C141_radius, C141_field, C141_jacobian, C141_curl, C141_length, C141_strength, C141_nan, C141_gradient, C141_units (all of them in units of rounding), C141_whole (against exact splines). Exponents are not limited. Outside of the radial range the field is scaled already in exact arithmetic (C52)."
  },
  {
   "property": "C142",
   "status": "partial",
   "theorems": [
    "Softlib.C142_pitch",
    "Softlib.C142_hastie",
    "Softlib.C142_avalanche",
    "Softlib.C142_relative",
    "Softlib.C142_radial",
    "Softlib.C142_refuted_small",
    "Softlib.C142_refuted_pitch"
   ],
   "note": "Refuted as stated: 1 - exp(-2A) cancels for small A, so that at an effective charge of 2^60 the avalanche distribution divides by zero (C142_refuted_small), and 1 - xi*xi cancels for xi near 1, so that the Connor-Hastie distribution is a million times less accurate than that at p = 2^40 (C142_refuted_pitch, for every accurate library). What holds: C142_pitch (as stated), C142_avalanche (200 units times 1 + exponent + 1/A, while 200 u (1 + 1/A) <= 1), C142_hastie (40 units times 1 + D p / |xi| + the cut-off exponent), C142_radial, C142_relative (from logarithms to relative errors). Exponents of numbers are not limited."
  },
  {
   "property": "C143",
   "status": "proved",
   "theorems": [
    "Softlib.C143_value",
    "Softlib.C143_units",
    "Softlib.C143_run"
   ],
   "note": "C143_value (one component of one step), C143_units, C143_run (whole integrations with the rounded step-size control); C137_fifth for the last coefficient. Exponents of numbers are not limited."
  },
  {
   "property": "C144",
   "status": "proved",
   "theorems": [
    "Softlib.C144_hit",
    "Softlib.C144_alarm",
    "Softlib.C144_between",
    "Softlib.C144_agree",
    "Softlib.C144_margin_needed",
    "Softlib.C144_slope_needed",
    "Softlib.C144_level_outward",
    "Softlib.C144_level_mirrored"
   ],
   "note": "C144_hit, C144_alarm, C144_between, C144_agree (agreement with the exact test of C47 and C99); C144_margin_needed and C144_slope_needed show with doubles that the conditions cannot be dropped. Exponents of numbers are not limited. Level tiles: C144_level_outward, C144_level_mirrored."
  },
  {
   "property": "C145",
   "status": "proved",
   "theorems": [
    "Softlib.C145_power",
    "Softlib.C145_bessel",
    "Softlib.C145_gaussian",
    "Softlib.C145_power_error",
    "Softlib.C145_gaussian_error",
    "Softlib.C145_bessel_error",
    "Softlib.C145_double",
    "Softlib.C145_relative_needed",
    "Softlib.C145_library_needed",
    "Softlib.C145_edge_jump"
   ],
   "note": "C145_power, C145_bessel, C145_gaussian (shape), C145_power_error, C145_bessel_error, C145_gaussian_error (accuracy), C145_double (premises hold in double precision). C145_relative_needed, C145_edge_jump and C145_library_needed show the limits: no relative bound near the outer edge, the radius is rounded before it is compared, and a merely accurate pow does not suffice for the shape. Exponents of numbers are not limited."
  },
  {
   "property": "C146",
   "status": "proved",
   "theorems": [
    "Softlib.C146_step",
    "Softlib.C146_estimate",
    "Softlib.C146_dense_step",
    "Softlib.C146_convergence",
    "Softlib.C146_limit",
    "Softlib.C146_forward",
    "Softlib.C146_dense",
    "Softlib.C146_lipschitz_needed",
    "Softlib.C146_integrals",
    "Softlib.C146_linear",
    "Softlib.C146_rounded"
   ],
   "note": "C146_step, C146_estimate, C146_dense_step (one step, any normed space), C146_convergence, C146_limit, C146_forward, C146_dense (whole integrations), C146_integrals and C146_linear (order five), C146_rounded (floating point, for equations that take rational vectors to rational vectors). C146_lipschitz_needed: without the Lipschitz condition integrations need not converge to a given solution. That the step control keeps the steps below H is a premise: the code has no largest step."
  },
  {
   "property": "C147",
   "status": "proved",
   "theorems": [
    "Softlib.C147_estimate",
    "Softlib.C147_loop",
    "Softlib.C147_step",
    "Softlib.C147_reaches"
   ],
   "note": "C147_estimate (any normed space), C147_loop, C147_step, C147_reaches. The default parameters of the control are assumed, arithmetic is exact. C37 and C90 have the failures when the conditions do not hold (estimate not a number, tolerance zero)."
  },
  {
   "property": "C148",
   "status": "proved",
   "theorems": [
    "Softlib.C148_orthogonal",
    "Softlib.C148_modes",
    "Softlib.C148_mean",
    "Softlib.C148_square",
    "Softlib.C148_unique",
    "Softlib.C148_file",
    "Softlib.C148_sign_needed"
   ],
   "note": "C148_orthogonal, C148_modes, C148_mean, C148_square, C148_unique, C148_file; C148_sign_needed shows that the condition on the sign cannot be dropped from the first part. Exact arithmetic; C61 has the rounding of the sum and C70, C61 what happens with fewer than two modes or more modes than momenta."
  },
  {
   "property": "C149",
   "status": "partial",
   "theorems": [
    "Softlib.C149_number_partial",
    "Softlib.C149_refuted",
    "Softlib.C149_forward_partial",
    "Softlib.C149_mean_pitch",
    "Softlib.C149_expPitch",
    "Softlib.C149_no_current"
   ],
   "note": "Refuted as stated: C149_refuted shows that for an accelerating field there are always more particles than that, up to twice as many (the factor belongs to exp(-A (1 - xi)), the code has exp(-A (1 - |xi|))). Proved: C149_number_partial has the exact number, with the additional factor 2 / (1 + exp(-A)); C149_forward_partial the number over one direction; C149_mean_pitch, C149_expPitch and C149_no_current the rest of the statement."
  },
  {
   "property": "C150",
   "status": "partial",
   "theorems": [
    "Softlib.C150_lines",
    "Softlib.C150_through",
    "Softlib.C150_turns_partial",
    "Softlib.C150_refuted",
    "Softlib.C150_close_partial"
   ],
   "note": "Refuted as stated: C150_refuted shows that off the magnetic axis each line goes around more often than q(r). Proved: C150_lines gives the lines explicitly (their tangent is the field everywhere), C150_through that one goes through every point, C150_turns_partial that they go around exactly q / sqrt(1 - (r/Rm)^2) times, in the stated direction, and C150_close_partial that this exceeds q by at most the fraction (r/Rm)^2 up to half way out."
  },
  {
   "property": "C151",
   "status": "partial",
   "theorems": [
    "Softlib.C151_factor_partial",
    "Softlib.C151_exact_iff",
    "Softlib.C151_constant_partial",
    "Softlib.C151_refuted",
    "Softlib.C151_flux_of_field"
   ],
   "note": "Refuted as stated: C151_refuted shows that with a linear safety factor the reported flux pi B0 r^2 / q is not the flux of the field at any point off the magnetic axis. Proved: C151_factor_partial has the exact ratio 1 - (r dq/dr) / (2 q), C151_exact_iff that off the magnetic axis the identity holds exactly where dq/dr = 0, C151_constant_partial that it holds everywhere for a constant safety factor, C151_flux_of_field what the flux would have to be."
  },
  {
   "property": "C152",
   "status": "partial",
   "theorems": [
    "Softlib.C152_density_partial",
    "Softlib.C152_middle_partial",
    "Softlib.C152_refuted"
   ],
   "note": "Refuted as stated: C152_refuted shows a current at the edge, against the direction of the plasma current on the outside. Proved: C152_density_partial has the exact density, with the additional part sigma_I B0 (Rm - R) / (R^2 q), and C152_middle_partial that the statement holds where R = Rm. That the reported curl is that of the field is C48."
  },
  {
   "property": "C153",
   "status": "partial",
   "theorems": [
    "Softlib.C153_back_partial",
    "Softlib.C153_refuted_back",
    "Softlib.C153_turned",
    "Softlib.C153_listed_partial",
    "Softlib.C153_parts_partial",
    "Softlib.C153_refuted_parts",
    "Softlib.C153_back_space",
    "Softlib.C153_listed_space",
    "Softlib.C153_turned_space",
    "Softlib.C153_part_space",
    "Softlib.C153_parts_space_partial",
    "Softlib.C153_level_space_partial",
    "Softlib.C153_refuted_space"
   ],
   "note": "Refuted as stated: C153_refuted_back (CrossesDomain does not report a step from the first vertex but reports the way back), C153_refuted_parts (CrossesDomain takes the curved poloidal path as straight, so a half is reported and the whole is not), C153_refuted_space (IntersectsDomain3D reports the whole and neither half). Proved: C153_back_space, C153_listed_space, C153_turned_space and C153_turned without restriction; C153_back_partial and C153_listed_partial away from the first and last vertex; C153_parts_partial for division in the poloidal plane; C153_part_space, C153_parts_space_partial and C153_level_space_partial for division in space."
  },
  {
   "property": "C154",
   "status": "proved",
   "theorems": [
    "Softlib.C154_inverse",
    "Softlib.C154_nowhere_zero",
    "Softlib.C154_stronger_inside",
    "Softlib.C154_extremes",
    "Softlib.C154_along",
    "Softlib.C154_midplane",
    "Softlib.C154_towards",
    "Softlib.C154_follow"
   ],
   "note": "C154_inverse, C154_stronger_inside, C154_extremes, C154_nowhere_zero for the norm of the field; C154_along, C154_midplane, C154_towards for the reported gradient; C154_follow shows that it is the derivative along curves that follow the field, although the gradient is wrong across the flux surfaces (C49)."
  },
  {
   "property": "C155",
   "status": "proved",
   "theorems": [
    "Softlib.C155_step",
    "Softlib.C155_run",
    "Softlib.C155_dense",
    "Softlib.C155_exists",
    "Softlib.C155_atol_needed",
    "Softlib.C155_first_step_needed",
    "Softlib.C155_units_needed"
   ],
   "note": "C155_step for one call of Step, C155_run from the initial value, C155_dense between the ends of a step, in exact arithmetic; C155_exists: every change of variables has its equation. The limits: C155_atol_needed, C155_units_needed (one absolute tolerance for all components cannot serve different units), C155_first_step_needed (a new integrator always starts with a step of 1, whatever the unit of time)."
  },
  {
   "property": "C156",
   "status": "partial",
   "theorems": [
    "Softlib.C156_step",
    "Softlib.C156_run",
    "Softlib.C156_space_partial",
    "Softlib.C156_convex",
    "Softlib.C156_convex_step",
    "Softlib.C156_convex_space_partial",
    "Softlib.C156_refuted_space",
    "Softlib.C156_closed_needed"
   ],
   "note": "Refuted as stated: IntersectsDomain3D lets particles out through horizontal sides (C156_refuted_space: a rectangle). Proved for CrossesDomain without exception: C156_step, C156_run for any number of steps; C156_convex, C156_convex_step: walls that turn left at every corner enclose what is on the left of all sides. C156_space_partial, C156_convex_space_partial: IntersectsDomain3D for walls without horizontal sides. C156_closed_needed: the first vertex has to be repeated for CrossesDomain."
  },
  {
   "property": "C157",
   "status": "partial",
   "theorems": [
    "Softlib.C157_gain",
    "Softlib.C157_sign",
    "Softlib.C157_growth",
    "Softlib.C157_decay_partial",
    "Softlib.C157_long_steps",
    "Softlib.C157_amplitude",
    "Softlib.C157_amplitude_changes",
    "Softlib.C157_amplitude_bound_partial",
    "Softlib.C157_refuted_decay",
    "Softlib.C157_refuted_amplitude"
   ],
   "note": "Refuted as stated: C157_refuted_decay (a step accepted with a large tolerance makes a decaying quantity more than three times as large), C157_refuted_amplitude (amplitudes change). Proved: C157_gain and C157_amplitude, the exact factors of each step; C157_sign and C157_growth without exception; C157_decay_partial for a h at most 3.3, C157_long_steps: never for a h of 3.4 or more; C157_amplitude_changes: oscillations are damped by steps with w h at most 0.99 and pumped by steps with w h of 1 or more; C157_amplitude_bound_partial: the loss up to the time t is at most the part w^6 H^5 t / 1800 of the square of the amplitude."
  },
  {
   "property": "C158",
   "status": "proved",
   "theorems": [
    "Softlib.C158_plane",
    "Softlib.C158_space",
    "Softlib.C158_radii",
    "Softlib.C158_bounds",
    "Softlib.C158_axis_needed",
    "Softlib.C158_sign_needed"
   ],
   "note": "C158_plane, C158_space, C158_radii, C158_bounds: without exception, in exact arithmetic. Limits: C158_axis_needed (radii are from the axis of symmetry), C158_sign_needed (the factor of radii has to be positive)."
  },
  {
   "property": "C159",
   "status": "proved",
   "theorems": [
    "Softlib.C159_turned",
    "Softlib.C159_turned_field",
    "Softlib.C159_turned_flux",
    "Softlib.C159_units",
    "Softlib.C159_units_field",
    "Softlib.C159_units_flux",
    "Softlib.C159_mirrored",
    "Softlib.C159_mirrored_field",
    "Softlib.C159_mirrored_flux",
    "Softlib.C159_plane_needed"
   ],
   "note": "C159_turned, C159_turned_field, C159_turned_flux; C159_units, C159_units_field, C159_units_flux; C159_mirrored, C159_mirrored_field, C159_mirrored_flux: without exception off the axis of symmetry. Limit: C159_plane_needed (the mirror has to be in the plane of the magnetic axis)."
  },
  {
   "property": "C160",
   "status": "proved",
   "theorems": [
    "Softlib.C160_sum",
    "Softlib.C160_product",
    "Softlib.C160_factor",
    "Softlib.C160_units",
    "Softlib.C160_sum_needed"
   ],
   "note": "C160_sum, C160_product, C160_factor, C160_units: without exception for linear interpolation in exact arithmetic, for tables of logarithms also where values are zero; the new table is accepted whenever the old ones are. Limit: C160_sum_needed (tables of logarithms do not add)."
  },
  {
   "property": "C161",
   "status": "partial",
   "theorems": [
    "Softlib.C161_eval_partial",
    "Softlib.C161_separate_partial",
    "Softlib.C161_exact",
    "Softlib.C161_refuted",
    "Softlib.C161_refuted_one",
    "Softlib.C161_refuted_again",
    "Softlib.C161_clone_needs_arrays"
   ],
   "note": "Refuted as stated: the class has no destructor and releases nothing. C161_refuted (when all objects are destroyed everything ever allocated is lost), C161_refuted_one, C161_refuted_again (initialising again loses what was held). C161_exact counts what is allocated by any program. The other parts hold: C161_eval_partial, C161_separate_partial. Limit: C161_clone_needs_arrays (after the caller has released the arrays an object can be evaluated but not cloned)."
  }
 ]
}