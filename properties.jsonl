{"id": "C01", "title": "Serial query returns exactly the matching nodes", "statement": "For a JSONPath built from .name, .*, ..name, ..* and [*], serialRun over a well-formed document returns the source text of every member value / array element whose location matches the path, each exactly once, ordered by the position where the value ends, and returns nothing else.", "quantifier": "every path of that class, every JSON document within the nesting limit, every admissible whitespace layout", "why_tests_cant": "Documents and paths are unbounded and descendant/wildcard steps overlap in unboundedly many ways; a test fixes one document and one path.", "anchors": ["JSONQuery/path_processor.h: serialRun, serialPartialRun", "JSONQuery/streaming_automaton.c: executeAutomaton", "DFABuilder/src/dfa_builder.cpp: buildJSONQueryDFA"]}
{"id": "C02", "title": "Array slices select exactly the requested indices", "statement": "A step [a:b] (a or b may be omitted) selects the elements of an array with index i, a <= i < b, and later steps continue only inside those elements, wherever the array occurs and however its other elements look.", "quantifier": "every path mixing slices with other steps, every document, every array length and every pair of bounds", "why_tests_cant": "The element counter is saved and restored across arbitrarily nested arrays and objects; correctness at each nesting and index is an induction, not a finite table.", "anchors": ["JSONQuery/streaming_automaton.c: getMatchedType, ary_s, elt_ary_e, executeAutomaton", "DFABuilder/src/dfa_builder.cpp: construct_dfa, create_dfa"]}
{"id": "C03", "title": "Filters keep exactly the elements whose predicate holds", "statement": "For a path with filter steps [?(expr)] followed by further steps, serialRun returns precisely the results lying inside array elements for which expr evaluates to true, for every nested filter on the way, independent of whether the tested properties come before or after the results in the element.", "quantifier": "every path of named steps, [*], slices and filters, every document, every member order", "why_tests_cant": "Results are buffered and released or discarded at the end of arbitrarily nested elements; the number of pending results and levels is unbounded.", "anchors": ["JSONQuery/predicate.c: generateFinalOutput", "JSONQuery/streaming_automaton.c: executeAutomaton", "DFABuilder/src/dfa_builder.cpp: construct_filter"]}
{"id": "C04", "title": "A single array index selects one element", "statement": "A step [n] selects the element with index n and nothing else.", "quantifier": "every path containing an index step, every n, every document", "why_tests_cant": "A test shows one path; whether the compiled automaton can ever distinguish [n] from its absence is a statement about all paths and documents.", "anchors": ["JSONPathParser/parser_j.y: IndexList", "DFABuilder/src/dfa_builder.cpp: construct_dfa"]}
{"id": "C05", "title": "A query that ends in a filter returns only the satisfying elements", "statement": "A path whose last step is a filter [?(expr)] returns the array elements for which expr is true and no other text.", "quantifier": "every path ending in a filter, every document", "why_tests_cant": "The claim is about every compiled automaton for that shape of query and every document.", "anchors": ["DFABuilder/src/dfa_builder.cpp: StackContext::construct_dfa, create_dfa, output_states", "JSONQuery/predicate.c: generateFinalOutput"]}
{"id": "C06", "title": "A filter may test the property that is returned", "statement": "A path such as $.a[?(@.b)].b, whose result location coincides with a tested property, returns that property of the satisfying elements.", "quantifier": "every path whose result location equals one of its filter's references, every document", "why_tests_cant": "Compilation merges equal sub-paths; which rule wins is a property of all such queries, not of one example.", "anchors": ["DFABuilder/src/dfa_builder.cpp: StackContext::create_dfa (check)"]}
{"id": "C07", "title": "Compiled automaton accepts exactly the path language", "statement": "Walking the query automaton from the initial state along the labels of a location ends in a result state iff the location matches the path expression; no other location is ever accepted.", "quantifier": "every path, every finite sequence of keys and array steps", "why_tests_cant": "The set of label sequences is infinite and the construction (positions, subsets, product, compression) has unboundedly many intermediate states.", "anchors": ["DFABuilder/src/Lexer/regex_model.cpp", "DFABuilder/src/Lexer/regex_builder.cpp: RegexBuilder::CreateDFA", "DFABuilder/src/Lexer/dfa_mixer.cpp", "DFABuilder/src/dfa_builder.cpp: create_dfa"]}
{"id": "C08", "title": "Compressed transition table is lossless", "statement": "After edges of any number of states have been added to the compressed automaton, looking up (state, input) returns exactly the target that was added for it, and adding a state never changes lookups for earlier states.", "quantifier": "every sequence of addEdge calls with arbitrary target vectors, every state and input", "why_tests_cant": "Overlapping rows in base/check/default arrays interact only for particular row combinations; no finite set of tables covers them.", "anchors": ["DFABuilder/src/Lexer/dfa_compressed.cpp: addEdge, nextState, createNewArea, createLinkArea"]}
{"id": "C09", "title": "Product automaton tracks every rule at once and the last matching rule wins", "statement": "The combined automaton, after any input word, accepts with rule i iff rule i accepts the word and no later rule does; it has no other stop states.", "quantifier": "every list of component automata, every input word", "why_tests_cant": "Word length and number of rules are unbounded.", "anchors": ["DFABuilder/src/Lexer/dfa_mixer.cpp: DFAMixer::Mix, find_states"]}
{"id": "C10", "title": "Keys not mentioned in the query are interchangeable", "statement": "Renaming, in a document, keys that the query does not mention to other keys that the query does not mention never changes which locations match; a key is looked up by exact text only.", "quantifier": "every query automaton, every state, every key text", "why_tests_cant": "Key texts are unbounded strings.", "anchors": ["DFABuilder/include/dfa.h: dfaNextStateByStr"]}
{"id": "C11", "title": "Tokenizer recovers the token sequence of a JSON text", "statement": "Reading tokens until END from the text of a JSON value yields exactly the brackets, commas, keys and scalar values of that value in order, with key names and string contents unchanged.", "quantifier": "every JSON value, every string content with escapes, every admissible whitespace", "why_tests_cant": "Inputs are unbounded strings; escapes, quotes and structural characters may appear in any combination.", "anchors": ["JSONQuery/lexing.c: nextToken, loadLexerContext"]}
{"id": "C12", "title": "Structural characters and escaped quotes inside strings are inert", "statement": "A string token ends at the first quote preceded by an even number of backslashes; braces, brackets, commas, colons and escaped quotes in the string never produce tokens.", "quantifier": "every string content, every context", "why_tests_cant": "The number of consecutive backslashes and the string length are unbounded.", "anchors": ["JSONQuery/lexing.c: nextToken case 1"]}
{"id": "C13", "title": "Tokenizer always terminates, makes progress and stays inside the input", "statement": "Every call returns; every returned token other than END moves the read position strictly forward and not beyond the end of the input; hence END is reached after at most as many calls as there are input bytes and then repeats forever.", "quantifier": "every byte string, well-formed or not, every lexer position reachable from the start", "why_tests_cant": "Arbitrary malformed inputs must be covered.", "anchors": ["JSONQuery/lexing.c: nextToken"]}
{"id": "C14", "title": "Scalar results keep their exact source text", "statement": "A number, true, false, null or string result (or filter operand) has exactly the characters it has in the document.", "quantifier": "every scalar in every syntactic position", "why_tests_cant": "Depends on the characters before and after the scalar, in unboundedly many layouts.", "anchors": ["JSONQuery/lexing.c: nextToken case 0, case 2", "JSONQuery/utility.c: substring_in_place"]}
{"id": "C15", "title": "Container results are verbatim source slices", "statement": "The text returned for a matched object or array is exactly the part of the input from its opening to its closing bracket.", "quantifier": "every input, every matched container, every prefix before the document", "why_tests_cant": "Offsets are relative to a pointer that may be moved by leading blanks; all prefixes must be considered.", "anchors": ["JSONQuery/utility.c: substring, ltrim", "JSONQuery/streaming_automaton.c: executeAutomaton"]}
{"id": "C16", "title": "Whitespace between tokens does not change which values are selected", "statement": "Two documents that differ only in insignificant whitespace give the same number of results, in the same order, with the same scalar texts.", "quantifier": "every pair of layouts of every document, every query automaton", "why_tests_cant": "There are infinitely many layouts of each document.", "anchors": ["JSONQuery/lexing.c: nextToken", "JSONQuery/streaming_automaton.c: executeAutomaton"]}
{"id": "C17", "title": "Streaming state is balanced and proportional to depth", "statement": "After a complete value has been consumed, the automaton's state, element index and both stacks are what they were before; while inside, stack heights are at most twice the current nesting depth, never depending on document length.", "quantifier": "every value within the nesting limit, every starting configuration", "why_tests_cant": "Values nest arbitrarily; this is an invariant over all prefixes of all documents.", "anchors": ["JSONQuery/streaming_automaton.c: obj_s..val_pmt", "JSONQuery/stack.h"]}
{"id": "C18", "title": "Deeply nested documents are handled correctly", "statement": "Query results are correct (or an error is reported) whatever the nesting depth of the document.", "quantifier": "every nesting depth", "why_tests_cant": "Depth is unbounded; the failure only appears past a fixed limit and is silent.", "anchors": ["JSONQuery/stack.h: syntaxStackPush, queryStackPush"]}
{"id": "C19", "title": "Loading a file piecewise loses and duplicates nothing", "statement": "The pieces delivered by successive loadBoundedInputStream calls, concatenated in order, are the file contents, and loading terminates.", "quantifier": "every file content, every piece size", "why_tests_cant": "All file contents and all cut positions must be considered.", "anchors": ["JSONQuery/path_processor.h: loadBoundedInputStream"]}
{"id": "C20", "title": "Partitioning an input loses and duplicates nothing", "statement": "partitionInputStream yields chunks whose concatenation in order is the input.", "quantifier": "every input, every number of cores", "why_tests_cant": "All inputs and all cut positions must be considered, including inputs with no legal cut.", "anchors": ["JSONQuery/path_processor.h: partitionInputStream", "JSONQuery/file_partition.c: partitionFile"]}
{"id": "C21", "title": "Chunk boundaries never fall inside a token", "statement": "Every chunk after the first starts at the opening quote of a string (key or value), never in the middle or at the closing quote of a string.", "quantifier": "every well-formed input, every number of chunks", "why_tests_cant": "String contents are arbitrary and may imitate a boundary.", "anchors": ["JSONQuery/path_processor.h: partitionInputStream, loadBoundedInputStream"]}
{"id": "C22", "title": "Splitting the token stream does not change the serial result", "statement": "Running the streaming automaton over consecutive pieces of a token stream, carrying its state from piece to piece, gives the same state and the same results as running it over the whole stream.", "quantifier": "every token stream, every way of cutting it into pieces", "why_tests_cant": "Cuts and streams are unbounded.", "anchors": ["JSONQuery/path_processor.h: serialPartialRun", "JSONQuery/streaming_automaton.c: executeAutomaton"]}
{"id": "C23", "title": "Filtering piecewise equals filtering at once", "statement": "Feeding the predicate filter the tuples in several batches gives the same output, pending buffer and open-element stack as feeding them in one batch.", "quantifier": "every tuple sequence, every way of cutting it into batches", "why_tests_cant": "Batches may end inside arbitrarily many open elements.", "anchors": ["JSONQuery/predicate.c: generateFinalOutput"]}
{"id": "C24", "title": "Nested filters release a result only if every enclosing predicate holds", "statement": "For any nesting of filtered elements, a candidate is output iff the predicate of each filtered element enclosing it evaluates to true on that element's own conditions; order is preserved and nothing is output twice.", "quantifier": "every forest of nested filtered elements whose nested predicates are different filters of the query", "why_tests_cant": "The nesting and the number of pending candidates are unbounded.", "anchors": ["JSONQuery/predicate.c: generateFinalOutput", "JSONQuery/predicate.h"]}
{"id": "C25", "title": "Recursively nested elements of the same filter do not interfere", "statement": "When an element tested by a filter contains another element tested by the same filter (possible with ..), the values recorded for the outer element are not affected by the inner one.", "quantifier": "every nesting of elements of one filter", "why_tests_cant": "Interference depends on member order inside nested elements.", "anchors": ["JSONQuery/predicate.c: generateFinalOutput (predicate_conditions)"]}
{"id": "C26", "title": "Filter expressions follow boolean and comparison semantics", "statement": "&&, || and ! follow the boolean truth tables over the truth values of their operands; == and != compare values of equal type by value and are complementary; a missing property is false and different from every present non-null value.", "quantifier": "every expression tree, every assignment of property values", "why_tests_cant": "Expression trees and environments are unbounded.", "anchors": ["JSONPathParser/jsonpath_evaluator.h: evaluateExpression, calculateExpression, computeBinaryOperator, computeUnaryOperator, computeTypeCast"]}
{"id": "C27", "title": "Ordering comparisons on missing or non-numeric values do not select", "statement": "An element lacking the compared property, or having a non-number there, does not satisfy @.p < n or any other numeric ordering test.", "quantifier": "every expression of that shape and every environment", "why_tests_cant": "Requires all types and values of operands.", "anchors": ["JSONPathParser/jsonpath_evaluator.h: computeBinaryOperator, stringToValue"]}
{"id": "C28", "title": "Reference rewriting preserves the meaning of filter expressions", "statement": "Turning each @.a.b.c chain of a filter expression into one condition name keeps the rest of the expression unchanged and makes its value the value of that property path.", "quantifier": "every filter expression", "why_tests_cant": "Expression trees are unbounded.", "anchors": ["JSONPathParser/jsonpath_evaluator.h: evaluatorModifyReference, evaluateExpression"]}
{"id": "C29", "title": "Data-constraint table returns exactly what was recorded", "statement": "After any sequence of recordings, looking up a key (or an array start) returns exactly the automaton states recorded for it, each once, in order of first recording.", "quantifier": "every sequence of recordings and lookups within capacity", "why_tests_cant": "Histories are unbounded.", "anchors": ["JSONQuery/constraint.h: addConstraintInfo, updateStateInfo"]}
{"id": "C30", "title": "Learned constraints never exclude the real state on the data they were learned from", "statement": "If constraints are collected from a document, then for every key and array start of that document the automaton state actually in force there is among the states the table keeps.", "quantifier": "every document, every query automaton", "why_tests_cant": "All positions of all documents must be considered.", "anchors": ["JSONQuery/streaming_automaton.c: executeAutomaton (constraint collection)", "JSONQuery/constraint.h", "JSONQuery/path_processor.h: collectDataConstraints"]}
{"id": "C31", "title": "Speculative worker simulates every possible start state", "statement": "A worker that starts in the middle of a document with all automaton states at once computes, for each start state, the same final state as the serial automaton started there, as long as only constructs opened inside the chunk are closed.", "quantifier": "every automaton, every start state, every token sequence of that kind", "why_tests_cant": "State sets merge and diverge along unbounded token sequences.", "anchors": ["JSONQuery/multi_stack.h: initQueryStacks, queryStacksPush, queryStacksPop", "JSONQuery/worker_automaton.c: executeWorkerAutomaton"]}
{"id": "C32", "title": "Parallel and serial runs return the same results", "statement": "parallelRun with any number of threads returns the same results, in the same order, as serialRun.", "quantifier": "every document, every query, every chunking", "why_tests_cant": "All cut positions times all documents.", "anchors": ["JSONQuery/path_processor.h: parallelRun", "JSONQuery/parallel_automata_execution.h: combine, executeParallelAutomata", "JSONQuery/worker_automaton.c"]}
{"id": "C33", "title": "Results do not depend on thread scheduling", "statement": "Whatever order the operating system runs the worker threads' steps in, the per-thread states after all threads finish, and hence the combined result, are the same.", "quantifier": "every interleaving of worker steps", "why_tests_cant": "The number of interleavings is exponential and unbounded.", "anchors": ["JSONQuery/parallel_automata_execution.h: executeParallelAutomata, main_thread", "JSONQuery/worker_automaton.c: executeWorkerAutomaton"]}
{"id": "C34", "title": "Tuples found for one start state form one chain in order", "statement": "After a worker finishes a unit, following the links from a start state's first tuple visits exactly the tuples found for that start state, in the order found.", "quantifier": "every sequence of tuple additions", "why_tests_cant": "Sequences of interleaved additions are unbounded.", "anchors": ["JSONQuery/tuple_list.h: addTuple, linkTuples", "JSONQuery/multi_stack.h: addTupleInfo, addVirtualTupleInfo"]}
{"id": "C35", "title": "No fixed-size buffer is overrun", "statement": "For every input, key names, scalar texts, result texts and counts never exceed the fixed buffers they are stored in.", "quantifier": "every input document and query", "why_tests_cant": "Overflow happens only past specific lengths and corrupts memory silently.", "anchors": ["JSONQuery/tuple_list.h: MAX_TEXT, addTuple", "JSONQuery/lexing.h: MAX_SIZE_PRIMITIVE", "JSONQuery/output.h: MAX_STRING", "JSONQuery/utility.c: strcopy"]}
{"id": "C36", "title": "Multi-piece serial runs use only live storage", "statement": "serialRun on a file processed in several pieces never touches released storage and its result does not depend on uninitialised fields.", "quantifier": "every number of pieces, every initial content of uninitialised fields", "why_tests_cant": "Uninitialised contents cannot be controlled by a test.", "anchors": ["JSONQuery/path_processor.h: serialPartialRun, serialRun, destroyStreamingContext", "JSONQuery/streaming_automaton.h: destroyStreamingAutomaton"]}
{"id": "C37", "title": "Filter expression grammar: parsing inverts printing", "statement": "Parsing the tokens of a fully parenthesised filter expression gives back that expression; unparenthesised operators associate by the declared precedences.", "quantifier": "every expression tree", "why_tests_cant": "Expression trees are unbounded.", "anchors": ["JSONPathParser/parser_j.y: Expr", "JSONPathParser/scanner_j.l"]}
{"id": "C38", "title": "&& binds tighter than ||", "statement": "In a filter, a || b && c means a || (b && c).", "quantifier": "every three operand expressions", "why_tests_cant": "Statement over all operand expressions and environments.", "anchors": ["JSONPathParser/parser_j.y: %left OR AND"]}
{"id": "C39", "title": "Unit combination restores the serial configuration", "statement": "Combining the syntax stack left by one chunk with that of the next chunk gives the stack of the concatenated chunk, and replaying a unit's unmatched closings pops exactly the constructs left open before.", "quantifier": "every pair of chunks of a well-formed document within capacity", "why_tests_cant": "All cut points of all documents.", "anchors": ["JSONQuery/stack.h: combineSyntaxStack", "JSONQuery/parallel_automata_execution.h: combine", "JSONQuery/unit.h"]}
{"id": "C40", "title": "Unmatched subtrees contribute nothing", "statement": "Inside a value whose location cannot be extended to a match (dead automaton state) no result, condition or predicate marker is produced, whatever the value contains.", "quantifier": "every value, every automaton whose state 0 is dead", "why_tests_cant": "Values are unbounded.", "anchors": ["JSONQuery/streaming_automaton.c: executeAutomaton", "DFABuilder/include/dfa.h: dfaNextState, dfaNextStateByStr"]}
{"id": "C41", "title": "No second processing without a constraint table", "statement": "When no constraint table is given, a parallel run never has to process any part of the input a second time, so the optimised entry point without a table behaves as the plain parallel run.", "quantifier": "every query with at most 2147483645 names, every file, buffer size, number of threads and content of uninitialised memory, every prefix of the pieces", "why_tests_cant": "It depends on every state a worker can be in at the end of every unit of every chunk of every document.", "anchors": ["JSONQuery/parallel_automata_execution.h: combine", "JSONQuery/worker_automaton.c: executeWorkerAutomaton", "JSONQuery/path_processor.h: parallelRun, parallelRunOpt"]}
{"id": "C42", "title": "A wrong constraint table never changes the output unnoticed", "statement": "If the optimised parallel run finds nothing to reprocess, it prints what the serial run prints, whatever the constraint table contains.", "quantifier": "every path, every document, every constraint table without repetitions, every number of threads, cuts as in C32", "why_tests_cant": "Tables, documents and cut points are unbounded; a missing check would only show for particular combinations.", "anchors": ["JSONQuery/worker_automaton.c: executeWorkerAutomaton (pruning)", "JSONQuery/constraint.h: updateStateInfo", "JSONQuery/multi_stack.h: initQueryStacks", "JSONQuery/parallel_automata_execution.h: combine (verification)"]}
{"id": "C43", "title": "A table learned from the same file is exact", "statement": "Collecting data constraints from a file and then running the optimised parallel query on that file reprocesses nothing and prints what the serial run prints; the same for any table that contains, for each key and array start of the file it knows, the state of the serial run there.", "quantifier": "every path, every document, every number of threads, every content of uninitialised memory, cuts as in C32", "why_tests_cant": "Needs agreement of two passes at every token of every document.", "anchors": ["JSONQuery/path_processor.h: collectDataConstraints, parallelRunOpt", "JSONQuery/streaming_automaton.c: executeAutomaton", "JSONQuery/constraint.h", "JSONQuery/worker_automaton.c: executeWorkerAutomaton"]}
{"id": "C44", "title": "Reprocessing repairs what a wrong table pruned", "statement": "With a constraint table learned from any training text, the optimised parallel run prints what the serial run prints on every file on which the plain parallel run does, and meets no undefined behaviour where that run meets none.", "quantifier": "every path, training text, file and number of threads", "why_tests_cant": "The failing units depend on the training text, the file and the cuts together.", "anchors": ["JSONQuery/parallel_automata_execution.h: combine (reprocessing)", "JSONQuery/unit.h: addStartPosition, addEndPosition", "JSONQuery/multi_stack.h: combineQueryStacks"]}
{"id": "C45", "title": "The parallel run stays within its buffers", "statement": "Whenever the chunks of a file can be made and the serial run meets no undefined behaviour, the parallel run meets none either: no worker overruns its stacks, nodes, origins, units or tuples, no combination step pops an empty stack or reads a missing text, and the result is the serial one.", "quantifier": "every query, file and number of threads up to 100", "why_tests_cant": "A worker starts in all states of the query at a place it does not know; whether an array overruns depends on the number of states, the nesting, the cut and the units together.", "anchors": ["JSONQuery/multi_stack.h: queryStacksPush, MAX_NODE", "JSONQuery/unit.h: addStartingStates, addUnmatchedSymbol, addUnit, MAX_STATE", "JSONQuery/worker_automaton.c: executeWorkerAutomaton", "JSONQuery/parallel_automata_execution.h: combine"]}
{"id": "C46", "title": "Sets of characters mean what is written", "statement": "For a set text of single characters, escapes and ranges, with or without a leading ^, the set converter gives the letter exactly the characters from 0 to 255 that the text denotes.", "quantifier": "every correctly written set text", "why_tests_cant": "The map of intervals is rearranged by each insertion; whether neighbours are merged correctly depends on the order and distance of all earlier parts and on the order of evaluation chosen by the compiler.", "anchors": ["DFABuilder/src/Lexer/charset.cpp: CharSet::CharSet, insert", "DFABuilder/src/Lexer/set_converter.cpp: Convert, insert", "DFABuilder/include/utility.hpp: EscapeChar, HexStringToDec"]}
{"id": "C47", "title": "Equivalence classes of characters are exact", "statement": "After the two passes of the converter two characters other than NUL have the same class exactly if no letter of the model tells them apart, the classes are numbered from 1 to the sum, and every letter stands for exactly the classes of its characters.", "quantifier": "every list of letters (characters and sets with ranges apart), every pair of characters from 1 to 255", "why_tests_cant": "The classes depend on all letters together; a split that is forgotten or made twice shows only for particular overlaps of sets.", "anchors": ["DFABuilder/src/Lexer/equivalence_class.cpp: Add, insert, Rearrage, makeSet, getClass", "DFABuilder/src/Lexer/ecset_converter.cpp: Prescan, Convert, Execute"]}
{"id": "C48", "title": "The automaton of an expression accepts its language", "statement": "The automaton that CreateDFA makes from the nullable, first, last and follow sets of an expression stops after a word exactly if the word belongs to the language of the expression.", "quantifier": "every expression of letters, sequences, alternatives and the operators ?, *, + in any nesting, every word", "why_tests_cant": "Expressions nest without bound and words are unbounded; a wrong follow set may need a particular nesting of optional parts and repetitions.", "anchors": ["DFABuilder/src/Lexer/regex_model.cpp: BuildNullable, BuildFirstAndLast, BuildFollow", "DFABuilder/src/Lexer/regex_builder.cpp: CreateDFA, Execute"]}
{"id": "C49", "title": "Rules over characters keep their meaning through the converters", "statement": "After the set converter, or after the equivalence class converter with the text translated to classes, the automaton of every rule accepts a nonempty text of characters 1 to 255 exactly if the rule describes the text.", "quantifier": "every model of rules whose sets are correctly written with ranges apart, every nonempty text", "why_tests_cant": "All rules share one table of classes; a rule can be damaged by the letters of another rule, on texts of any length.", "anchors": ["DFABuilder/src/Lexer/ecset_converter.cpp: Execute, traverses_model", "DFABuilder/src/Lexer/set_converter.cpp: Execute, traverses_model", "DFABuilder/src/Lexer/regex_builder.cpp: CreateDFA"]}
{"id": "C50", "title": "The uninitialised unit state decides nothing", "statement": "The field unit_state, which initUnit does not write, never decides what a parallel run prints or whether it meets undefined behaviour.", "quantifier": "every query, file, number of threads, and every content of the field in every worker", "why_tests_cant": "Fresh memory usually holds zero; which garbage value a later run finds cannot be chosen by a test.", "anchors": ["JSONQuery/unit.h: initUnit, addStartPosition", "JSONQuery/worker_automaton.c: executeWorkerAutomaton", "JSONQuery/parallel_automata_execution.h: combine"]}
{"id": "C51", "title": "A parallel run over several pieces prints what the serial run prints", "statement": "When a file is loaded in several pieces, each processed by several threads, the parallel run returns what the serial run returns on the same file, and no later piece reads what an earlier one did not write; the content of the field finish_flag, which initParallelAutomata does not write, makes no difference.", "quantifier": "every query, file, size of the pieces, number of threads, and every content of the field", "why_tests_cant": "Files above 250 MB are needed for a second piece; whether the state handed to it is complete depends on where the piece ends, and fresh memory usually holds zero.", "anchors": ["JSONQuery/path_processor.h: parallelRun, parallelPartialRun", "JSONQuery/parallel_automata_execution.h: initParallelAutomata, destroyParallelAutomata, executeParallelAutomata, combine", "JSONQuery/worker_automaton.c: executeWorkerAutomaton (lines 130-135)", "JSONQuery/multi_stack.h: combineQueryStacks, queryStacksPush"]}
{"id": "C52", "title": "Parallel runs use only live storage and release it", "statement": "A parallel run never touches released storage, never releases an object twice and never follows a pointer that was not written; at its end all worker automata, tuple lists, input pieces, chunks and filter arrays have been released.", "quantifier": "every query, file, number of pieces and threads, every content of the fields that no function writes, with and without a constraint table", "why_tests_cant": "The pointers are shared between copies of the same structure in the context, in locals and in the heap; a dangling pointer often still shows the old data, and the contents of fields never written cannot be chosen.", "anchors": ["JSONQuery/path_processor.h: parallelRun, parallelPartialRun, parallelRunOpt, parallelPartialRunOpt, destroyStreamingContext", "JSONQuery/parallel_automata_execution.h: initParallelAutomata, destroyParallelAutomata, executeParallelAutomata, combine", "JSONQuery/worker_automaton.h: createWorkerAutomaton, destroyWorkerAutomaton, freeWorkerAutomaton", "JSONQuery/file_partition.h: freeInputChunks"]}
{"id": "C53", "title": "Non-greedy expressions accept their shortest words", "statement": "If an item of an expression is marked as non-greedy, the automaton that CreateDFA makes stops after exactly the nonempty words of the expression that have no shorter nonempty beginning in its language; the same holds for copies of the expression.", "quantifier": "every expression with marked items, in any nesting, every word", "why_tests_cant": "The marks act through the position sets of the enclosing list; whether a mark cuts off words that are not complete depends on what surrounds the list, and expressions nest without bound.", "anchors": ["DFABuilder/src/Lexer/regex_model.cpp: RegexList::BuildFollow", "DFABuilder/src/Lexer/regex_builder.cpp: find_keepout, CreateDFA", "DFABuilder/include/Lexer/regex_model.hpp: RegexItem, deepCopy"]}
{"id": "C54", "title": "Loading stays inside its buffer", "statement": "Loading a document piece by piece reads and writes only inside the allocated buffers, whatever the document contains.", "quantifier": "every JSON document of any size, every memory footprint", "why_tests_cant": "The overrun needs a file larger than the footprint of 250 MB and 2000 characters without a suitable string exactly behind it; the bytes written beyond the buffer often change nothing visible.", "anchors": ["JSONQuery/path_processor.h: loadBoundedInputStream"]}
{"id": "C55", "title": "Runs close the files they open", "statement": "After the loading loop of a run every stream that was opened has been closed.", "quantifier": "every file, every memory footprint", "why_tests_cant": "A stream left open has no visible effect until the process has too many of them.", "anchors": ["JSONQuery/path_processor.h: loadBoundedInputStream, serialRun, parallelRun"]}
{"id": "C56", "title": "Every query that can be written is compiled", "statement": "Every JSONPath query that the parser accepts is turned into an automaton without reading memory that was never written.", "quantifier": "every path of steps, slices, indexes and filters, in any order and number, written with any blanks", "why_tests_cant": "The member that decides whether the last rule is generated is uninitialised for some paths; on most machines it happens to hold zero, so the run looks right.", "anchors": ["DFABuilder/src/dfa_builder.cpp: StackContext, construct_dfa, construct_filter, dfa_build"]}
{"id": "C57", "title": "Filters work below wildcard and descendant steps", "statement": "For a query that consists of names, wildcards and descendant steps followed by a path with filters, serialRun returns, for every part of the document that the first steps select, exactly what the rest of the query selects in that part; the verdict on an element never depends on other parts.", "quantifier": "every path of names, .*, ..*, ..name and [*] before every path with filters, every document", "why_tests_cant": "Wildcards merge rules in the automaton and descendant steps make the same filter active at arbitrarily many places and depths of a document.", "anchors": ["DFABuilder/src/dfa_builder.cpp: construct_filter, acc_id2state, create_context", "JSONQuery/predicate.c: generateFinalOutput", "JSONQuery/predicate.h: initPredicateFilter", "JSONQuery/streaming_automaton.c: executeAutomaton"]}
{"id": "C58", "title": "The automaton of a query fits the arrays for its states", "statement": "The automaton compiled from a path of at most 98 steps has at most 100 states, so every array that has one entry per state (predicate_conditions, query_state, starting_states) has room for it.", "quantifier": "every path, every filter query below other steps", "why_tests_cant": "The number of states grows exponentially only for descendant steps followed by several wildcards; short test queries have a handful of states, and writing past an array on the stack need not crash.", "anchors": ["DFABuilder/src/dfa_builder.cpp: create_dfa, dfa_build", "JSONQuery/predicate.h: initPredicateFilter", "JSONQuery/worker_automaton.c: executeWorkerAutomaton", "JSONQuery/unit.h: MAX_STATE"]}
{"id": "C59", "title": "Every filter expression has a value on every element", "statement": "Evaluating a filter expression never reads a value as another type and never faults: for every expression that can be written and every element it is applied to, the verdict is true or false.", "quantifier": "every filter expression, every element", "why_tests_cant": "Which operation meets which type of value depends on the expression and the document together, and reading a wrong union member shows no error.", "anchors": ["JSONPathParser/jsonpath_evaluator.h: computeBinaryOperator, calculateExpression, stringToValue", "JSONQuery/predicate.c: generateFinalOutput"]}
{"id": "C60", "title": "The merge keeps exactly the results of the elements in a slice", "statement": "When an array restricted by a slice [lo:up] began before a chunk, the worker of the chunk does not know the indices of its elements: it records the results found below every element and leaves a mark after each element. While the lists are merged, exactly the results of the elements whose index (counted on from the entry of the merge) is at least lo and below up are taken over, in order and with their texts; the entry's count advances by the number of elements; and the entry loses its state exactly when no element of the slice can follow.", "quantifier": "all automata, all slice bounds, all counts of the entry, all lists of results with marks, all chunks", "why_tests_cant": "Which elements a worker meets behind a cut depends on where the cuts fall; the bounds, the count before the cut and the number of elements and results per element combine without limit, and an error by one shows only if the slice ends inside the chunk.", "anchors": ["JSONQuery/parallel_automata_execution.h: combine (308-345)", "JSONQuery/worker_automaton.c: executeWorkerAutomaton (285-306)", "JSONQuery/tuple_list.h: addTuple"]}
{"id": "C61", "title": "Collecting constraints stays within its table", "statement": "Collecting data constraints from a file (collectDataConstraints) writes nothing outside the constraint table, whatever bytes the memory of the table held before: an entry is made at most once for each different key of the file and at most once for all its arrays, an entry lists each state at most once and only states of the automaton, and each name fits its field. So it is defined for every file with at most 1000 different keys (one less if there are arrays), keys of at most 98 characters and an automaton of at most 100 states; with more than 1000 different keys it is not.", "quantifier": "all automata, all files, all contents of the memory of the table", "why_tests_cant": "The limits are reached only by files with a thousand different keys or by long keys, and writing just behind an array usually goes unnoticed; whether an entry is found again also depends on uninitialised bytes.", "anchors": ["JSONQuery/constraint.h: addConstraintInfo", "JSONQuery/path_processor.h: collectDataConstraints, loadInputStream", "JSONQuery/streaming_automaton.c: executeAutomaton (231-242, 282-293)"]}
{"id": "C62", "title": "A table learned from one document serves every document of the same shape", "statement": "The data constraints are collected from one document and used to prune the parallel run on another. If every key and every array of the second document occurs in the first at a location that differs at most in the indices of elements, then, for paths without slices, the table lists the state of the automaton at every key and array of the second document, whatever bytes its memory held before; so the optimised run on the second document is defined, reprocesses nothing and prints the selected values, for paths with and without filters and for files loaded in pieces. Keys of the second document that the first does not have at all do no harm, unless the uninitialised memory of the table held them. For paths with slices the locations must be the same, indices included.", "quantifier": "all queries, all pairs of documents, all contents of the memory of the table, all numbers of threads, all footprints", "why_tests_cant": "The training document is chosen by the user and is usually a small excerpt of the data; whether pruning loses a result depends on the pair of documents, the query and the cuts, which combine without limit.", "anchors": ["JSONQuery/path_processor.h: collectDataConstraints, parallelRunOpt", "JSONQuery/constraint.h: addConstraintInfo, updateStateInfo", "JSONQuery/streaming_automaton.c: executeAutomaton (231-242, 282-293)", "JSONQuery/worker_automaton.c: executeWorkerAutomaton (505 ff.)"]}
