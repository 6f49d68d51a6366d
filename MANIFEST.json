{
 "claims": [
  {
   "property": "C01",
   "status": "partial",
   "theorems": [
    "JPS.c01_serial_exact_partial",
    "JPS.c01_serial_shows_partial",
    "JPS.c02_footprint_partial",
    "JPS.c01_false",
    "JPS.c01_false_key",
    "JPS.c37_query_partial"
   ],
   "note": "Proved for every filter-free, slice-free query and every readable document, loaded as a whole or in pieces of any size (c02_footprint_partial); the unrestricted statement is refuted (literal after a colon, line break before a colon)."
  },
  {
   "property": "C02",
   "status": "partial",
   "theorems": [
    "JPS.c02_slices_exact_partial",
    "JPS.c02_slices_shows_partial",
    "JPS.c02_footprint_partial",
    "JPS.c02_false",
    "JPS.c02_false_empty",
    "JPS.c02_false_desc",
    "JPS.c02_actual_partial",
    "JPS.c02_one_slice_partial",
    "JPS.c02_false_wrong",
    "JPS.c02_flat_partial",
    "JPS.c02_flat_shows_partial",
    "JPS.c02_once_partial",
    "JPS.c02_chosen_footprint_partial",
    "JPS.c02_empty_last",
    "JPS.c02_empty_exact_partial",
    "JPS.c02_false_empty_inner"
   ],
   "note": "Proved when no descendant step precedes a slice and bounds are not [0:0], loaded as a whole or in pieces; the unrestricted statement is refuted: results can be missing (c02_false_desc) and wrong results can be reported (c02_false_wrong). For every path with slices other than [0:0], also below descendant steps, c02_actual_partial says exactly what is reported; with one slice that ends the path, or in a path that ends in a name, every reported value is right (c02_one_slice_partial). The results are those of the path, also below descendant steps, if no array whose elements a slice counts lies in another one (c02_flat_partial, c02_flat_shows_partial), for instance if every slice follows a name and members of these names do not lie in each other (c02_once_partial). Loaded in pieces: c02_chosen_footprint_partial. The slice [0:0] at the end of a path acts as [*], for every text (c02_empty_last, c02_empty_exact_partial); before other steps it leads to the evaluation of a missing filter expression (c02_false_empty_inner)."
  },
  {
   "property": "C03",
   "status": "partial",
   "theorems": [
    "JPS.c03_select_partial",
    "JPS.c03_slices_partial",
    "JPS.c03_false_array",
    "JPS.c03_false_returned",
    "JPS.c03_false_last",
    "JPS.c03_false_empty",
    "JPS.c03_false_slice",
    "JPS.c03_footprint_partial",
    "JPS.c03_footprint_slices_partial",
    "JPS.c03_strict_partial",
    "JPS.c03_false_negative"
   ],
   "note": "Proved for every path of names, [*], slices and filters in which each filter is directly followed by a name, the result is not the property its last filter tests and no slice is [0:0], for every readable tidy document on which the filters are defined. False in general: five witnesses (array elements below nested filters, results that are tested, a filter at the end, [0:0] below a filter, a slice directly after a filter). The same for files of any size loaded in pieces of any size, when no container that the path without filters leads to lies across the end of a piece; filtered elements may (c03_footprint_partial, c03_footprint_slices_partial). A missing or null value is read as zero in orderings; in the reading where such a comparison has no value the result is the same wherever that reading decides the document (c03_strict_partial). Negative numbers must not be tested: they are read as null (c03_false_negative)."
  },
  {
   "property": "C04",
   "status": "partial",
   "theorems": [
    "JPS.c04_ignored_partial",
    "JPS.c04_slice_partial",
    "JPS.c04_false",
    "JPS.c04_lists_partial",
    "JPS.c04_false_names"
   ],
   "note": "False of the code: [n] is ignored by the compiler. Proved: such a query runs as if [n] were not written, for every path, file and number format; and the slice [n:n+1] does what [n] should do. From the path text the same holds for lists of indices and double-quoted names [1,\"a\"] and for scripts [(e)] (c04_lists_partial); $.b[\"a\"] returns b (c04_false_names)."
  },
  {
   "property": "C05",
   "status": "partial",
   "theorems": [
    "JPS.c05_listing_partial",
    "JPS.c05_kept_partial",
    "JPS.c05_constant_partial",
    "JPS.c05_false",
    "JPS.c05_false_nested"
   ],
   "note": "False of the code: witness $.a[?(@.x)], which returns the tested property and every element. Proved instead: for a path that ends in its only filter, the exact list of results on readable, tidy documents (for each element its tested properties, then the element, whatever the filter says), that no satisfying element is lost, and that a constant filter equals [*]. Below another filter such a query may read an operator as a string (c05_false_nested)."
  },
  {
   "property": "C06",
   "status": "partial",
   "theorems": [
    "JPS.c06_ignored_partial",
    "JPS.c06_listing_partial",
    "JPS.c06_false"
   ],
   "note": "False of the code: witness $.a[?(@.b)].b, which returns elements and ignores the condition. Proved instead: such a query is compiled to the same table and filter context as the query without the last property (any earlier filters), hence the exact list of results."
  },
  {
   "property": "C07",
   "status": "partial",
   "theorems": [
    "JPS.c07_accepts_path_language_partial",
    "JPS.c07_false"
   ],
   "note": "All filter-free paths with at most 253 different names, slices read as [*] (c07_accepts_path_language_partial). Refuted for paths with more names (c07_false)."
  },
  {
   "property": "C08",
   "status": "proved",
   "theorems": [
    "JPS.c08_compressed_lossless",
    "JPS.c08_add_keeps"
   ],
   "note": ""
  },
  {
   "property": "C09",
   "status": "proved",
   "theorems": [
    "JPS.c09_product_last_rule"
   ],
   "note": ""
  },
  {
   "property": "C10",
   "status": "proved",
   "theorems": [
    "JPS.c10_unmentioned_keys",
    "JPS.c10_renaming",
    "JPS.c10_names_of_path"
   ],
   "note": ""
  },
  {
   "property": "C11",
   "status": "partial",
   "theorems": [
    "JPS.c11_tokens_partial",
    "JPS.c11_tokens_shows_partial",
    "JPS.c11_positions",
    "JPS.c11_false",
    "JPS.c11_false_key",
    "JPS.c11_false_top"
   ],
   "note": "Exact for tidy layouts; all tokens but literals exact for every layout without line break before a colon; unrestricted statement refuted."
  },
  {
   "property": "C12",
   "status": "proved",
   "theorems": [
    "JPS.c12_string_token",
    "JPS.c12_unterminated",
    "JPS.c12_raw_ends"
   ],
   "note": ""
  },
  {
   "property": "C13",
   "status": "proved",
   "theorems": [
    "JPS.c13_progress",
    "JPS.c13_inside",
    "JPS.c13_terminates"
   ],
   "note": ""
  },
  {
   "property": "C14",
   "status": "partial",
   "theorems": [
    "JPS.c14_scalars_shows_partial",
    "JPS.c14_scalars_exact_partial",
    "JPS.c14_false",
    "JPS.c14_false_all"
   ],
   "note": "Strings always exact; literals exact in tidy layouts; unrestricted statement refuted."
  },
  {
   "property": "C15",
   "status": "partial",
   "theorems": [
    "JPS.c15_verbatim_partial",
    "JPS.c15_slices_any_input_partial",
    "JPS.c15_shifted",
    "JPS.c15_false",
    "JPS.c15_false_blank"
   ],
   "note": "True unless the input starts with a blank; then refuted, and the shift is characterised for every input."
  },
  {
   "property": "C16",
   "status": "partial",
   "theorems": [
    "JPS.c16_layout_partial",
    "JPS.c16_layout_exact_partial",
    "JPS.c16_results_partial",
    "JPS.c16_false",
    "JPS.c16_false_key"
   ],
   "note": "Every query automaton; exact for tidy layouts; refuted for the others."
  },
  {
   "property": "C17",
   "status": "proved",
   "theorems": [
    "JPS.c17_member_balanced",
    "JPS.c17_element_balanced",
    "JPS.c17_document_balanced",
    "JPS.c17_heights"
   ],
   "note": "Values within the nesting limit, any query automaton."
  },
  {
   "property": "C18",
   "status": "partial",
   "theorems": [
    "JPS.c18_within_limit_partial",
    "JPS.c18_false",
    "JPS.c18_false_extra",
    "JPS.c18_false_missing"
   ],
   "note": "Refuted beyond 100 stack entries; proved within."
  },
  {
   "property": "C19",
   "status": "proved",
   "theorems": [
    "JPS.c19_lossless",
    "JPS.c19_terminates",
    "JPS.c19_boundaries"
   ],
   "note": "Pieces concatenate to the file, at most one piece per byte, none empty, and where each piece can end. Footprint is a parameter, so 250,000,000 is one instance."
  },
  {
   "property": "C20",
   "status": "partial",
   "theorems": [
    "JPS.c20_lossless_partial",
    "JPS.c20_dense_partial",
    "JPS.c20_file_partial",
    "JPS.c20_false",
    "JPS.c20_false_blank"
   ],
   "note": "Lossless whenever the cutting is defined and the input has no leading blank; defined on dense large inputs; false in general (no cut left: reads past the end; leading blank: shifted). partitionFile: texts lossless, but it always overruns or returns a missing chunk."
  },
  {
   "property": "C21",
   "status": "partial",
   "theorems": [
    "JPS.c21_load_partial",
    "JPS.c21_load_false",
    "JPS.c21_partition_partial",
    "JPS.c21_partition_false"
   ],
   "note": "Holds, for loader and partition, when no string ends in comma or opening bracket (then blanks); false otherwise."
  },
  {
   "property": "C22",
   "status": "proved",
   "theorems": [
    "JPS.c22_tokens",
    "JPS.c22_text_partial",
    "JPS.c22_footprint_partial",
    "JPS.c22_text_false",
    "JPS.c22_chosen_partial",
    "JPS.c22_strings_partial",
    "JPS.c22_false_strings"
   ],
   "note": "The token-stream statement holds without conditions (c22_tokens). At the level of texts, where every piece is tokenised and reported on its own, equality is proved when pieces start at strings and no reported container is open at a boundary (c22_text_partial; c22_footprint_partial for files and paths, in terms of the document only), and refuted in general (c22_text_false). Slices below descendant steps: c22_chosen_partial. Strings that end in a comma: fine as long as no cut falls into one (…_strings_partial), false otherwise (…_false_strings)."
  },
  {
   "property": "C23",
   "status": "proved",
   "theorems": [
    "JPS.c23_batches"
   ],
   "note": "Any partition of the tuples into batches."
  },
  {
   "property": "C24",
   "status": "proved",
   "theorems": [
    "JPS.c24_nested"
   ],
   "note": "For every forest of tested elements and results in which elements of the same filter are not nested (that case is C25)."
  },
  {
   "property": "C25",
   "status": "partial",
   "theorems": [
    "JPS.c25_false",
    "JPS.c25_unnested_partial"
   ],
   "note": "False of the code: witness $..a[?(@.x)].b. Proved for elements of one filter that are not nested in each other."
  },
  {
   "property": "C26",
   "status": "partial",
   "theorems": [
    "JPS.c26_semantics",
    "JPS.c26_logical_total",
    "JPS.c26_complementary",
    "JPS.c26_missing",
    "JPS.c26_text_value_partial",
    "JPS.c26_container",
    "JPS.c26_present_partial",
    "JPS.c26_false",
    "JPS.c26_false_negative"
   ],
   "note": "The evaluator's verdict equals the value of the expression in the specification for every expression and environment, and is indeterminate exactly where that has none; recorded texts of scalars other than negative numbers have the scalar's value, recorded arrays and objects are true, and a missing property differs from every present value other than null. False for negative numbers, which are read as null (c26_false, c26_false_negative). That the tokenizer may report a literal with an extra character, which changes its value, is C14."
  },
  {
   "property": "C27",
   "status": "partial",
   "theorems": [
    "JPS.c27_ordering_partial",
    "JPS.c27_false",
    "JPS.c27_false_run"
   ],
   "note": "False of the code for missing properties (a missing property satisfies @.p < n for positive n). Proved for numeric properties. The same for a whole run (c27_false_run)."
  },
  {
   "property": "C28",
   "status": "partial",
   "theorems": [
    "JPS.c28_rewrites",
    "JPS.c28_distinct",
    "JPS.c28_live_partial",
    "JPS.c28_live_false"
   ],
   "note": "The rewriting is exact for every expression; that it uses only live storage is false for references of two or more steps, and proved exactly for the others."
  },
  {
   "property": "C29",
   "status": "partial",
   "theorems": [
    "JPS.c29_lookup_partial",
    "JPS.c29_array_partial",
    "JPS.c29_false"
   ],
   "note": "Exact for all keys that differ from the uninitialised names of array entries, with the exact capacity condition; false in general (empty key in zeroed memory)."
  },
  {
   "property": "C30",
   "status": "proved",
   "theorems": [
    "JPS.c30_learned_sound",
    "JPS.c30_file_sound",
    "JPS.c30_same_run"
   ],
   "note": "For every automaton, token sequence, file and memory content."
  },
  {
   "property": "C31",
   "status": "partial",
   "theorems": [
    "JPS.c31_states_partial",
    "JPS.c31_document_partial",
    "JPS.c31_false"
   ],
   "note": "For start states without a slice, chunks that continue a JSON text and close only what they open: the worker has exactly one current state per start state, that of the serial automaton started there (c31_states_partial); for the chunks the partition makes of a document, the state in which the serial automaton leaves the chunk (c31_document_partial). With slices the statement is refuted (c31_false: a worker counts elements from 0)."
  },
  {
   "property": "C32",
   "status": "partial",
   "theorems": [
    "JPS.c32_paths_partial",
    "JPS.c32_scalars_partial",
    "JPS.c32_false",
    "JPS.c32_false_object",
    "JPS.c32_false_element",
    "JPS.c32_false_slice",
    "JPS.c32_filters_partial",
    "JPS.c32_filters_exact_partial",
    "JPS.parallel_sim",
    "JPS.parallel_doc",
    "JPS.c32_below_partial",
    "JPS.c32_filter_slices_partial",
    "JPS.c32_false_records",
    "JPS.c32_false_rows",
    "JPS.c32_chosen_partial",
    "JPS.c32_strings_partial",
    "JPS.c32_strings_filters_partial",
    "JPS.c32_false_strings"
   ],
   "note": "Refuted in general (c32_false: the text of a string is lost when a worker learns late that it is inside an array; c32_false_object: an object over three chunks; c32_false_element: an element torn by one cut of an array that began before the chunk; c32_false_slice: elements of a sliced array across a cut miscounted; c32_false_records: elements of a sliced array of objects that lie across the second of two cuts are selected whatever their index; c32_false_rows: the elements of a torn sliced array of arrays are not counted). Proved for paths with the slices of C02, any number of threads and any document cut by the partition, when no selected container, no array with selected scalars and no sliced array lies across a cut and neither run meets undefined behaviour (c32_paths_partial); with no condition on the cuts when the path has no slices, ends in a key and selects scalars (c32_scalars_partial). The same for the filter queries of C03 when no candidate is torn; filtered elements may lie across cuts (c32_filters_partial, with the printed values in c32_filters_exact_partial). Missing: selected objects torn by the first cut only; sliced arrays of objects torn by one cut only. The same for the filter queries of C57 (c32_below_partial). Paths with filters and slices: the same when no sliced array lies across a cut (c32_filter_slices_partial). Slices below descendant steps: c32_chosen_partial, with the values the program selects (Chosen) and the arrays it counts. Strings that end in a comma: fine as long as no cut falls into one (…_strings_partial), false otherwise (…_false_strings)."
  },
  {
   "property": "C33",
   "status": "proved",
   "theorems": [
    "JPS.c33_workers",
    "JPS.c33_schedule"
   ],
   "note": "Any interleaving of thread creation and worker steps. That workers touch only their own data (own WorkerAutomaton, stacks, lexer, tuple list) is how the model is built, read off the code."
  },
  {
   "property": "C34",
   "status": "proved",
   "theorems": [
    "JPS.c34_chain",
    "JPS.c34_worker"
   ],
   "note": "c34_chain: the linked lists as a data structure, any sequence of additions. c34_worker: the chains of a start state in the units of a finished worker are what a worker started in that state alone finds; without constraint table, runs that stay inside the arrays."
  },
  {
   "property": "C35",
   "status": "partial",
   "theorems": [
    "JPS.c35_exact_partial",
    "JPS.c35_filter_partial",
    "JPS.c35_filter_slices_partial",
    "JPS.c35_false_result",
    "JPS.c35_false_key",
    "JPS.c35_every_partial",
    "JPS.c35_every_exact_partial",
    "JPS.c35_flag_partial",
    "JPS.c35_filter_flag_partial",
    "JPS.c35_serial_flag_partial",
    "JPS.c35_close_flag_partial",
    "JPS.c35_pred_flag_partial"
   ],
   "note": "Serial runs of a file loaded as a whole: for filter-free paths without `..` before a slice the run stays in its buffers iff keys and scalars have at most 3998 characters and the selected values are at most 800000 of at most 998 characters; for filter paths, also with slices, a sufficient condition. False for every document: a result of 999 characters or a key of 3999 overruns. For every query without filters, also with `..` before slices and single indexes: exact condition in terms of the results of the run on tidy documents, sufficient condition for every layout (literals counted with the white space behind them). Not covered: filter queries on untidy documents; parallel runs are C45. The flags mean what they should: where none is set, stacks, tuples, texts, buffer and output fit into the arrays of the code (c35_flag_partial, c35_filter_flag_partial, c35_serial_flag_partial), and the states of predicates are indexes of their array (c35_pred_flag_partial). The text of a selected object or array is flagged exactly when its copy leaves a buffer (c35_close_flag_partial)."
  },
  {
   "property": "C36",
   "status": "partial",
   "theorems": [
    "JPS.c36_single_partial",
    "JPS.c36_released",
    "JPS.c36_large",
    "JPS.c36_stale",
    "JPS.c36_stale_output",
    "JPS.c36_defined",
    "JPS.c36_collect",
    "JPS.c36_false"
   ],
   "note": "False of the code: with two or more pieces the run either reads the released tuple list (finish_flag happens to be 0) or re-emits earlier results (otherwise). Proved: the exact condition under which a run is defined, the single-piece case (result independent of finish_flag), the value in the stale case, and that every file above 250,002,000 bytes is affected."
  },
  {
   "property": "C37",
   "status": "proved",
   "theorems": [
    "JPS.c37_parenthesised",
    "JPS.c37_levels",
    "JPS.c37_path",
    "JPS.c37_unambiguous",
    "JPS.c37_mod_unlevelled",
    "JPS.c37_lists"
   ],
   "note": "From path text through scanner and parser to tree, for every path with filters and any blanks: full parentheses, and minimal parentheses by declared levels. % has no declared level and must be parenthesised. Also for lists of indices and double-quoted names, and scripts (c37_lists)."
  },
  {
   "property": "C38",
   "status": "partial",
   "theorems": [
    "JPS.c38_false",
    "JPS.c38_left_partial",
    "JPS.c38_value_partial",
    "JPS.c38_rejects"
   ],
   "note": "False: || and && share one level, so a || b && c is read (a || b) && c. Proved: the actual reading for all operands, and exactly when the two readings agree."
  },
  {
   "property": "C39",
   "status": "partial",
   "theorems": [
    "JPS.c39_units",
    "JPS.c39_chunk",
    "JPS.c39_run",
    "JPS.c39_document_partial",
    "JPS.c39_false"
   ],
   "note": "For any query, constraint table and enclosing constructs: the units of a worker replay exactly the closings of its tokens (c39_units), combining gives the stack of the text with the chunk (c39_chunk, c39_run), and for documents cut by the partition the stack of the serial automaton at each cut (c39_document_partial). Partial because of strings that end in ',', '{' or '[': there the partition cuts inside a string and the claim is refuted (c39_false)."
  },
  {
   "property": "C40",
   "status": "proved",
   "theorems": [
    "JPS.c40_dead_silent",
    "JPS.c40_compiled_dead"
   ],
   "note": ""
  },
  {
   "property": "C41",
   "status": "proved",
   "theorems": [
    "JPS.c41_no_table"
   ],
   "note": "For every run whose pieces meet no undefined behaviour."
  },
  {
   "property": "C42",
   "status": "partial",
   "theorems": [
    "JPS.c42_pruned_paths_partial",
    "JPS.c42_pruned_filters_partial",
    "JPS.c42_filter_slices_partial",
    "JPS.c42_below_partial",
    "JPS.c42_chosen_partial"
   ],
   "note": "Conditions of C32 (paths, and queries with filters as in C03; nothing selected or filtered torn by a cut, no sliced array across a cut, one piece, no undefined behaviour). Filters with slices: c42_filter_slices_partial; the filter queries of C57: c42_below_partial. Also with slices below descendant steps (chosen)."
  },
  {
   "property": "C43",
   "status": "partial",
   "theorems": [
    "JPS.c43_covering_paths_partial",
    "JPS.c43_same_file_partial",
    "JPS.c43_covering_filters_partial",
    "JPS.c43_filter_slices_partial",
    "JPS.c43_below_partial",
    "JPS.c43_chosen_partial"
   ],
   "note": "Conditions of C32, for paths and for queries with filters. The excluded undefined behaviour is that of the pruned run without reprocessing (excluded by proof in c45_same_file_partial and c45_same_file_filters_partial). Filters with slices: c43_filter_slices_partial; the filter queries of C57: c43_below_partial. Also with slices below descendant steps (chosen)."
  },
  {
   "property": "C44",
   "status": "partial",
   "theorems": [
    "JPS.c44_false",
    "JPS.c44_false_ub",
    "JPS.c42_pruned_paths_partial",
    "JPS.c44_unit_text_partial",
    "JPS.c44_reprocess_partial",
    "JPS.c44_unit_partial",
    "JPS.c44_unit_lost_partial",
    "JPS.c44_false_blank",
    "JPS.c44_copy_flag_partial"
   ],
   "note": "Refuted: a number before the closing bracket of a reprocessed unit is lost; nodes without root range are followed. What holds is C42: without reprocessing the output is right. c44_unit_text_partial: for every run, the text of a unit ends directly before its closing bracket. c44_reprocess_partial: from a combined state that stands for the serial automaton, processing a unit again gives what the serial automaton finds on the tokens of the unit's text. c44_unit_partial: the same for a unit in its chunk, if no scalar without quotes stands directly before the closing bracket and no blank at the beginning; c44_false_blank refutes it with a blank before the first key. With a scalar directly before the bracket exactly that scalar is missing (c44_unit_lost_partial). Where no flag is set, the copy of the unit stays inside its chunk (c44_copy_flag_partial)."
  },
  {
   "property": "C45",
   "status": "partial",
   "theorems": [
    "JPS.c45_paths_partial",
    "JPS.c45_exact_partial",
    "JPS.c45_filters_partial",
    "JPS.c45_filters_exact_partial",
    "JPS.c45_same_file_partial",
    "JPS.c45_same_file_filters_partial",
    "JPS.parallel_safe",
    "JPS.c45_false_nesting",
    "JPS.c45_false_states",
    "JPS.c45_false_filter",
    "JPS.c45_below_partial",
    "JPS.c45_same_file_below_partial",
    "JPS.c45_false_array",
    "JPS.c45_filter_slices_partial",
    "JPS.c45_same_file_filter_slices_partial",
    "JPS.c45_false_key",
    "JPS.c45_false_slice",
    "JPS.c45_scalars_partial",
    "JPS.c45_levels_partial",
    "JPS.c45_desc_partial",
    "JPS.c45_filters_levels_partial",
    "JPS.c45_chosen_partial",
    "JPS.c45_flat_partial",
    "JPS.c45_chosen_same_file_partial",
    "JPS.c45_strings_partial",
    "JPS.c45_cross_flag_partial",
    "JPS.c45_cross_start_partial",
    "JPS.c45_worker_flag_partial",
    "JPS.c45_flag_partial",
    "JPS.c45_flag_again_partial",
    "JPS.c45_content_partial",
    "JPS.c45_span_flag_partial",
    "JPS.c45_first_flag_partial"
   ],
   "note": "Refuted without limits: n states times nesting over 500, or more than 100 states, overrun a worker's arrays; a filtered element across a cut whose array begins after the first chunk reads unset ranges (c45_false_filter). Proved with explicit limits (Sizes) for paths without filters when nothing selected is torn by a cut and no sliced array lies across one, and for queries with filters when no candidate is torn and filtered arrays across a cut begin in the first chunk, one piece; then the output is exactly the selection, also with the table learned from the file (paths and filter queries). The same for the filter queries of C57 (c45_below_partial, c45_same_file_below_partial). A selected array across a cut overruns its text buffer by one byte (c45_false_array). With a sliced array across a cut the merge reads the text of a tuple that nobody wrote (c45_false_slice). Filters with slices: c45_filter_slices_partial, c45_same_file_filter_slices_partial. With a table the keys must have at most 98 characters: a longer key overruns token_name in every worker but the first (c45_false_key). For paths ending in a name that select scalars only, no condition on the cuts is left (c45_scalars_partial) and the limits are stated on the length of the path, the number of cores and the document alone (c45_levels_partial, c45_desc_partial; for filter queries c45_filters_levels_partial). Slices below descendant steps: c45_chosen_partial, c45_flat_partial. Also with slices below descendant steps (chosen). Strings that end in a comma: fine as long as no cut falls into one (…_strings_partial). The flags mean what they should: where none is set, every list of every state fits into the array of the code (c45_worker_flag_partial, c45_flag_partial, c45_flag_again_partial, c45_cross_flag_partial), and every token fits into the buffer of its tokenizer (c45_content_partial). Copies at the merge are flagged exactly when they leave a buffer (c45_span_flag_partial), copies in the first chunk when they do (c45_first_flag_partial)."
  },
  {
   "property": "C46",
   "status": "partial",
   "theorems": [
    "JPS.c46_set_partial",
    "JPS.c46_false_overlap",
    "JPS.c46_false_inside",
    "JPS.c46_false_adjacent",
    "JPS.c46_false_order",
    "JPS.c46_false_utf8",
    "JPS.c46_false_reversed",
    "JPS.c46_false_copy"
   ],
   "note": "Exact for every text whose ranges are apart; false for overlapping, adjacent, containing and reversed ranges and for bytes beyond ASCII."
  },
  {
   "property": "C47",
   "status": "proved",
   "theorems": [
    "JPS.c47_classes"
   ],
   "note": "For every list of letters with ranges apart (the texts C46 covers) and both orders of evaluation."
  },
  {
   "property": "C48",
   "status": "partial",
   "theorems": [
    "JPS.c48_automaton_partial",
    "JPS.c48_false_empty"
   ],
   "note": "Exact for every expression without non-greedy marks on items of sequences and every nonempty word; the empty word is never accepted (c48_false_empty).  Marks: C53."
  },
  {
   "property": "C49",
   "status": "partial",
   "theorems": [
    "JPS.c49_sets_partial",
    "JPS.c49_classes_partial"
   ],
   "note": "For nonempty texts, sets with ranges apart and no non-greedy marks; the rest is refuted by C46, C48 and C53."
  },
  {
   "property": "C50",
   "status": "partial",
   "theorems": [
    "JPS.c50_documents_partial",
    "JPS.c50_optimised_partial",
    "JPS.c50_false_plain",
    "JPS.c50_false_optimised"
   ],
   "note": "Plain runs on documents of one piece: proved for every query, number of threads and content of the field. Refuted for files that are not documents (two different outputs) and for optimised runs (NULL start of a reprocessed unit if the field held MATCHED)."
  },
  {
   "property": "C51",
   "status": "partial",
   "theorems": [
    "JPS.c51_paths_partial",
    "JPS.c51_paths_exact_partial",
    "JPS.c51_scalars_partial",
    "JPS.c51_filters_partial",
    "JPS.c51_opt_paths_partial",
    "JPS.c51_opt_filters_partial",
    "JPS.c51_single",
    "JPS.c51_false_roots",
    "JPS.c51_false_flag",
    "JPS.c51_below_partial",
    "JPS.c51_filter_slices_partial",
    "JPS.c51_opt_filter_slices_partial",
    "JPS.c51_opt_below_partial",
    "JPS.c51_chosen_partial",
    "JPS.c51_chosen_exact_partial",
    "JPS.c51_opt_chosen_partial"
   ],
   "note": "Proved for documents the tokenizer reads, of any length up to intMax, loaded in pieces of any size and cut for any number of threads, when finish_flag holds 0, no piece is processed with undefined behaviour, and nothing selected is torn apart by a cut (for paths ending in a key that select scalars no condition on the cuts is needed); the printed texts are the selected values. False in general: copied nodes have no root_range, and a later piece reads it (c51_false_roots); with another value in finish_flag the results of earlier pieces are printed again (c51_false_flag). Optimised runs with a table that covers the file: the same (c51_opt_*). The filter queries of C57: c51_below_partial. Filters with slices: c51_filter_slices_partial, c51_opt_filter_slices_partial; optimised runs of the queries of C57: c51_opt_below_partial. Also with slices below descendant steps (chosen)."
  },
  {
   "property": "C52",
   "status": "partial",
   "theorems": [
    "JPS.c52_live_partial",
    "JPS.c52_left_partial",
    "JPS.c52_values",
    "JPS.c52_single",
    "JPS.c52_false_empty",
    "JPS.c52_false_left"
   ],
   "note": "Proved for every run over at least one piece: no released storage is touched, everything but worker 0 and its list is released, and the values are those of the value model, with finish_flag the only unwritten field that matters (none for a file of one piece). False for the empty file (exact condition) and for the release of worker 0."
  },
  {
   "property": "C53",
   "status": "partial",
   "theorems": [
    "JPS.c53_shortest_partial",
    "JPS.c53_copies",
    "JPS.c53_false_inner",
    "JPS.c53_false_or",
    "JPS.c53_false_copy"
   ],
   "note": "Exact when the marked items are items of the outermost sequence or alternatives further inside (any operators, any expressions inside); false for marks in inner sequences ((a*?b)c accepts nothing), on alternatives (no effect, by C48) and for copies, which accept the whole language."
  },
  {
   "property": "C54",
   "status": "partial",
   "theorems": [
    "JPS.c54_exact",
    "JPS.c54_documents_partial",
    "JPS.c54_small",
    "JPS.c54_no_quotes",
    "JPS.c54_false"
   ],
   "note": "Exact condition: the loads of a document stay in the buffers for every footprint iff every window of 2000 characters has a quote after , { or [ and blanks; files up to the footprint are safe. False in general (an array of numbers larger than the footprint)."
  },
  {
   "property": "C55",
   "status": "partial",
   "theorems": [
    "JPS.c55_left_open_partial",
    "JPS.c55_false"
   ],
   "note": "False: exactly one stream stays open after every run, that of the last call."
  },
  {
   "property": "C56",
   "status": "partial",
   "theorems": [
    "JPS.c56_exact",
    "JPS.c56_text_partial",
    "JPS.c56_false"
   ],
   "note": "Compiling a path reads an uninitialised member exactly if it has no step other than single indexes; every other written path is compiled. Refuted by `$` and `$[5]`. What is missing is only these paths."
  },
  {
   "property": "C57",
   "status": "partial",
   "theorems": [
    "JPS.c57_prefix_partial",
    "JPS.c57_levels_partial",
    "JPS.c57_clean_partial",
    "JPS.c57_false_nested",
    "JPS.c57_false_wildcard",
    "JPS.c57_footprint_partial"
   ],
   "note": "Proved for all steps but slices before a filter path as in C03, if no selected part lies in another one (automatic without descendant steps) and the table has at most 100 states; with buffer bounds. False for nested parts and for a wildcard after a filter. The same for files loaded in pieces of any size (c57_footprint_partial); for parallel runs see C32, C45 and C51."
  },
  {
   "property": "C58",
   "status": "partial",
   "theorems": [
    "JPS.c58_levels_partial",
    "JPS.c58_fits_partial",
    "JPS.c58_filters_partial",
    "JPS.c58_filters_exact_partial",
    "JPS.c58_below_desc_partial",
    "JPS.c58_desc_partial",
    "JPS.c58_desc_fits_partial",
    "JPS.c58_deep_exact",
    "JPS.c58_exponential",
    "JPS.c58_false",
    "JPS.c58_false_parallel",
    "JPS.c58_false_serial"
   ],
   "note": "Paths without descendant steps have exactly length + 2 states; paths with one at most (steps before the first) + 2 + 2^(items behind its repeated item), also with slices; so they fit when at most 7 items come from the first descendant step on and at most 34 steps before it; ..a and n times .* has exactly 2^(n+1) + 2. Filter paths have exactly one state per node of the tree of their steps and tested properties and two more; below steps without .. at most one per step and tested step and two more; below descendant steps at most (steps before the first) + 2 + 2^(items behind the repeated one, steps and tested steps). False in general: from n = 6 every parallel run on two or more chunks, and with a filter from n = 7 every serial run, writes past an array of 100. The bounds for descendant steps are not exact for every path; filter paths with slices are bounded by the condition of C35 only."
  },
  {
   "property": "C59",
   "status": "partial",
   "theorems": [
    "JPS.c59_exact",
    "JPS.c59_run_partial",
    "JPS.c59_unguarded",
    "JPS.c59_false",
    "JPS.c59_false_remainder"
   ],
   "note": "False of the code: an ordering of a string reads a pointer as a number, and a remainder by zero or by a missing property faults; a test before && does not protect, because both sides are evaluated first (c59_unguarded). Proved: an expression has a value on every element exactly if orderings and arithmetic occur between constants only (c59_exact), and queries with such filters run without undefined behaviour on every document without negative numbers, within the limits of C35 (c59_run_partial)."
  },
  {
   "property": "C60",
   "status": "proved",
   "theorems": [
    "JPS.c60_kept"
   ],
   "note": "About the merge step (parallel_automata_execution.h:308-345) for any list of results with a mark after each element. That workers leave a mark only after objects (not after scalars or arrays), and enter elements open at the end of a chunk whatever their index, is shown by c32_false_slice, c32_false_rows and c32_false_records under C32."
  },
  {
   "property": "C61",
   "status": "partial",
   "theorems": [
    "JPS.c61_text",
    "JPS.c61_too_many",
    "JPS.c61_document",
    "JPS.c61_document_iff",
    "JPS.c61_query_partial",
    "JPS.c61_paths_partial",
    "JPS.c61_filters_partial",
    "JPS.c61_learn_run_partial",
    "JPS.c61_false_key",
    "JPS.c61_false_many",
    "JPS.c61_flag_partial",
    "JPS.c61_flag_run_partial"
   ],
   "note": "c61_text holds for any text and any contents of the memory, c61_document states it with the keys of a document, c61_document_iff shows the bound of 1000 keys exact without arrays, c61_too_many that more than 1000 keys leave the table. For paths, also with filters, the automaton of the learning run is defined as well; c61_learn_run_partial puts learning and the optimised run on the same file together. False without the limits: c61_false_key (a key of 99 characters) and c61_false_many (1024 keys), where the serial run is fine. Not shown: that a longer key always leaves its field when the memory held something else (an entry for an array may by accident carry the name). Where no flag is set the table fits into its arrays (c61_flag_partial), and then so does the parallel run with it if it is not flagged (c61_flag_run_partial)."
  },
  {
   "property": "C62",
   "status": "partial",
   "theorems": [
    "JPS.c62_covers_shape",
    "JPS.c62_covers_known",
    "JPS.c62_covers_places",
    "JPS.c62_shape_partial",
    "JPS.c62_known_partial",
    "JPS.c62_places_partial",
    "JPS.c62_filters_partial",
    "JPS.c62_pieces_partial",
    "JPS.c62_below_partial",
    "JPS.c62_filter_slices_partial",
    "JPS.c62_chosen_partial",
    "JPS.c62_false",
    "JPS.c62_false_slices",
    "JPS.c62_false_memory"
   ],
   "note": "The table covers every document of the same shape (no limits). Keys unknown to the training document do no harm unless uninitialised memory held them. Runs: under the conditions of C43/C45/C51 on sizes and cuts. False without a condition on the shape, and with slices for documents that have the same shape but other indices."
  }
 ]
}