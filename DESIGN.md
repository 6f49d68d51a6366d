# Formal model of JPStream: design

This file was written before the proofs and is kept current as the model grows.
`/repo` is never built or run; the model is tied to it only by reading, and every
definition of the model carries a comment with the file and lines it models.

## 1. Trusted base

* The Lean 4.33.0 kernel.
* Axioms: at most `propext`, `Classical.choice`, `Quot.sound` (Lean's standard ones).
  No axiom is added; there is no `sorry`, `native_decide`, `bv_decide`,
  `implemented_by` or `unsafe` code.  Section 6 lists the axioms per theorem.
* The reading of the C / C++ sources recorded in the comments of the model.
* C semantics where the model relies on it: `malloc` succeeds, `char` is compared
  only with ASCII constants, file contents contain no NUL byte (`strlen` bounds
  every loop of the program), pointers into one buffer are modelled by offsets.
* bison's documented treatment of precedence declarations, flex's longest match.
* Floating point is abstract: the evaluator is parametric in a number type with a
  parser (`atof`) and the C operators.  No theorem assumes IEEE laws.

## 2. Conventions of the model

* A byte is a `Char`; a stream is a `List Char` (without the final NUL).
* Undefined behaviour is a distinct outcome.  Components that can overrun a fixed
  buffer carry a sticky flag (`ub`) or return a distinguished constructor; a result
  is only claimed when the flag is clear, and the theorems say exactly when it is.
* Uninitialised C storage is an explicit parameter ("garbage") over which theorems
  quantify.
* Loops are structural recursions, well-founded recursions, or take fuel; where
  fuel is used a theorem shows that enough fuel exists and more changes nothing.
* Specifications live in `Verif/Spec/*` and do not mention the model.
* Property theorems live in `Verif/Props/*`, one file per group, each with a
  non-vacuity `example` beside it (some of them in `Props/Instances.lean`); helper lemmas live beside the model.

## 3. What is modelled

### 3.1 Code and the modules that model it

| Module | Code |
|---|---|
| `Util` | `utility.c` (`ltrim`, `substring`, `strcopy` with its buffer size) |
| `Lexer` | `lexing.h`, `lexing.c` (`loadLexerContext`, `nextToken`) |
| `Stack` | `stack.h` (syntax and query stack, limit 100, full and empty cases) |
| `Dfa` | `dfa.h` (table lookup, accept types, stop states, array ranges) |
| `Worklist`, `Regex`, `Mixer`, `Compressed` | `regex_model.cpp`, `regex_builder.cpp`, `set_converter.cpp`, `dfa_simple.cpp`, `dfa_mixer.cpp`, `dfa_compressed.cpp/.hpp` |
| `CharSet`, `EquivClass` | `charset.cpp`, `set_converter.cpp` for any set text, `EscapeChar` and `HexStringToDec` of `utility.hpp`, `equivalence_class.cpp`, `ecset_converter.cpp` |
| `RegexTree` | `regex_model.cpp`, `regex_builder.cpp` for any nesting of lists and operators |
| `Ast` | `jsonpath_model.h` (syntax trees, list structure of paths) |
| `Parser` | `scanner_j.l`, `parser_j.y` (scanner and shift-reduce parser; the files CMakeLists.txt builds) |
| `QueryBuilder` | `dfa_builder.cpp` (`construct_dfa`, names, condition subtrees, registration of rules, tables) |
| `Stream` | `streaming_automaton.c`, `tuple_list.h` (`executeAutomaton` and its rules, tuple list) |
| `Predicate` | `predicate.h`, `predicate.c`, `output.h` |
| `Eval` | `jsonpath_evaluator.h` (including union reads and the rewriting of references) |
| `Load` | `path_processor.h` (`loadInputStream`, `loadBoundedInputStream`) |
| `Serial` | `path_processor.h` (`serialPartialRun`, `serialRun`), values only |
| `Resource` | `path_processor.h`, `tuple_list.h`, storage of serial runs: allocation, release, copied pointers, uninitialised `finish_flag` |
| `Constraint` | `constraint.h` and the collection of constraints in `streaming_automaton.c` |
| `Partition` | `path_processor.h` (`partitionInputStream`), `file_partition.c` |
| `MultiStack` | `multi_stack.h`, linked tuples of `tuple_list.h` |
| `Worker` | `worker_automaton.h/.c`, `unit.h` |
| `Combine` | `parallel_automata_execution.h`, parallel runs of `path_processor.h`, up to the first reprocessed unit |
| `Reprocess`, `UnitSpan`, `LexerUnit` | the same with reprocessing (parallel_automata_execution.h:282-305), positions of units, `parallelRunOpt` |
| `ParResource` | storage of parallel runs: tuple lists, worker automata, input pieces and chunks, filter arrays; allocation, release, copied pointers, fields never written (`path_processor.h`, `parallel_automata_execution.h`, `worker_automaton.h`, `file_partition.h`, `predicate.h`) |
| `Carry` | the tuple list between the pieces of a parallel run, uninitialised `finish_flag` (`initParallelAutomata`, `destroyParallelAutomata`) |

All other modules outside `Spec` and `Props` contain lemmas: about documents (`Doc`, `Seen`, `EmitV`, `LexerProofs`,
`LexerDoc`, `LexerCut`, `TokenSpec`, `Grammar`, `DocSplit`, `DocCuts`, `SpanProofs`), the streaming automaton
(`StreamProofs`, `StreamInv`, `PieceSim`, `PieceDoc`, `CtlSim`), the compiler (`TableProofs`, `PathCtx`, `PathLang`,
`PathProofs`, `PathSerial`, `PathTable`, `SliceActual`), filters (`FilterCtx`, `FilterTable`, `FilterForest`, `FilterVerdict`,
`FilterSelect`, `FilterRun`, `FilterUb`, `FilterLast`; with slices `FilterSliceCtx`, `FilterSliceTable`, `FilterSliceWords`,
`FilterPrune`, `FilterSliceForest`, `FilterSliceLoc`; below other steps `FilterPrefix`, `FilterBelow`; numbers of states `StateCount`, `StateBlowup`, `PathStates`, `FilterStates`), the parser (`ParserProofs`, `IndexList`), the merge of sliced arrays (`MergeSlice`) and the parallel run (`ChainProofs`, `LevelProofs`,
`WorkerView`, `WorkerTrack`, `WorkerStart`, `ParRel`, `ParJoin`, `ParStep`, `ParComb`, `ParMerge`, `ParUnits`, `ParChunk`, `InChunk`,
`SyntaxPar`, `PruneProofs`, `StateBound`, `Indet`, `WorkerSafe`, `ParSafe`, `ParRooted`, `ParSafeK`, `ParSafeAll`, `DocSafe`, `DocFrames`, `ParResume`).  A few of them define intermediate semantics (`emit`, `toks`, `P`, `Comb`); each is proved equal to the
model of the code and none occurs in the specification.

### 3.2 Specifications (do not mention the model)

| Module | Content |
|---|---|
| `Spec/Json` | documents as trees with layout, `render`, well-formedness, locations and parts |
| `Spec/Path` | steps and when a location matches a path |
| `Spec/Text` | layouts for which the tokenizer is exact (`tidy`), the weaker report `Shows`, size bounds |
| `Spec/Tokens`, `Spec/Layout`, `Spec/Strings`, `Spec/Spans` | tokens, insignificant blanks, places of strings and parts in the text |
| `Spec/Expr`, `Spec/Scalar`, `Spec/Total` | meaning of filter expressions, values of scalars |
| `Spec/Forest` | nested tested elements and what they release |
| `Spec/FilterPath` | meaning of paths with filters by recursion on the value |
| `Spec/FilterSlice` | the same with slices `[a:b]` |
| `Spec/Below` | parts selected by a path that do not lie in each other |
| `Spec/Syntax` | how paths and expressions are written |
| `Spec/SliceActual` | what slices below descendant steps select in the program |
| `Spec/Slice` | the part of a list that lies in a slice |
| `Spec/Keys` | the keys and arrays of a document |
| `Spec/Shape` | where the keys and arrays of a document begin; documents of the same shape |
| `Spec/IndexList` | how lists in brackets are written and what they mean |
| `Spec/Log`, `Spec/Level` | histories of recordings; how far a token sequence climbs down |
| `Spec/Nest` | nesting and number of tokens of a document |
| `Spec/CharClass` | how sets of characters are written and what they contain |
| `Spec/Regex` | languages of regular expressions |

### 3.3 Simplifications

* Pointers are offsets; arrays of fixed size are lists or functions with an explicit limit, and exceeding the limit sets
  the flag `ub` (serial), `bad` (parallel) or gives a distinguished outcome.
* `Serial` gives each piece a new tuple list, as the authors intended; `Resource` models what the storage really does, and
  C36 states when the two agree.
* `Worker` and `Combine`: each worker owns its `WorkerAutomaton`, stacks, lexer and tuple list; the query automaton and the
  constraint table are only read while workers run.  This disjointness is read off the code
  (parallel_automata_execution.h:369-385) and is the assumption behind C33.
* `Combine` records reprocessing of a unit (parallel_automata_execution.h:282-305) as "would happen" (`re`); `Reprocess`
  executes it.  The two are proved equal where nothing is reprocessed, in both directions.
* `MultiStack` keeps with each node the list of its roots instead of a range in the array `root_pointers`.  A node copied by
  `combineQueryStacks` (multi_stack.h:428-455) keeps the range its place in the array held before: the model calls it
  indeterminate (`none`) and reading it undefined behaviour, also where an older node of worker 0 had written the place.  In the witness of C51
  the place was never written.  `queryStacksPop` takes `num_root_pointers` from the node it returns to (multi_stack.h:229), which may be such a node; every later use of the number
  starts from such a node and is flagged there.
* `Combine` gives worker 0 a new tuple list in every piece (`finish_flag` is 0); `Carry` has the content of the flag as a parameter;
  `ParResource` has the lists and workers as objects that are shared and released.  It demands that a list is live also when no tuple is added,
  counts the arrays of the filter as one object, and leaves out the texts of tuples and conditions, the `stream` array and the output.
* `RegexTree` identifies a letter by its number from left to right instead of its address, and a `RegexRef` by the copy of
  the expression it holds.  JSONPath compilation uses none of this beyond the flat lists of `Regex` and the set `^`.
* `CharSet`: `i->first - (--i)->first` (charset.cpp:105) has two orders of evaluation; the flag `lf` is the choice of the compiler, and
  every theorem names it.
* Numbers of the evaluator are abstract (`NumOps`); `atof` is a parameter.
* A start recorded in an earlier text (worker 0 resumed on a later piece, a unit being reprocessed) may lie behind the end of an object;
  `substring` then allocates too little.  `SA.closeOutput` and `W.closeOut` report it; for a worker on one text it is proved not to happen (`WorkerStart`).
* `primitiveFound` does not report that the copy may read past the end of the text when a literal directly follows a string, which happens in
  no JSON document.

Not modelled: printing functions, `free` except where C36 and C52 need it, pthread creation itself (only the interleaving of
worker steps), CPU affinity, `gettimeofday`, `dragontooth.h` (a runtime for tests), `scanner.l`/`parser.y` (not in
CMakeLists.txt), `dfa_dump.cpp`, `config_manager.cpp`, `error_center.cpp`, `pass.cpp`, `demo/`, `test/`.

## 4. Properties: outcome and proof

MANIFEST.json has the theorem names.  "Refuted" means that the negation is proved with a concrete witness.

* **C01** partial.  Spec: `Matches` and the parts of a document in order of their ends.  Proof: tokenizer on documents
  (C11), automaton refinement by structural induction over values for an arbitrary table, compiler theorem (C07).  Holds
  for every slice-free path of at most 253 different names and every readable document, also when loaded in pieces.  Refuted for
  documents with a literal directly after a colon, or a line break before a colon.
* **C02** partial.  Same refinement with element indices.  Refuted: `..` before a slice; `[0:0]`.  For slices below `..`
  `c02_actual_partial` gives the exact results: `Spec.Chosen` describes them by the longest beginning of the path that ends in a slice
  (or the whole path) and leads to a location when bounds are ignored; only its bounds are tested there.  So results can be missing,
  and `$..a[0:1].a[*]` reports wrong ones.  With one slice that ends the path, or in a path that ends in a name, all reported values
  are right (`c02_one_slice_partial`).  If no array whose elements a slice counts lies in another one (`Spec.Flat`), the results are those
  of the path (`c02_flat_partial`; without descendant steps before slices this always holds, `flat_noDesc`); a simple sufficient
  condition is that every slice follows a name and members of these names do not lie in each other (`c02_once_partial`).
  `[0:0]` at the end of a path compiles to what `[*]` compiles to (`Props/EmptySlice`).
  `Props/ParallelActual` carries this over to files in pieces (C22) and parallel runs (C32, C45).
  `Props/OptActual` does so for optimised runs (C42, C43, C45) and for parallel runs over files in pieces (C51).
  `Props/Strings` replaces the condition on strings in C22, C32 and C45 by one on the cuts, and shows that one is needed.
* **C03** partial.  The tuples of a document form a forest of tested elements; the compiler's states are tied to the path
  (`FTab`), the verdict on an element to the element's own properties, and C24 gives the output.  For every path of names,
  `[*]` and filters in which each filter is followed by a name.  With slices (`c03_slices_partial`): the run reports for the
  document what the path with `[*]` for every slice reports for the document without the elements outside the slices
  (`J.prune`), and such a document has the same selection.  Refuted for array elements under nested filters, results
  that are also tested, filters at the end, `[0:0]` below a filter.  Files loaded in several pieces (`Props/FilterFootprint`): the table reports
  only at locations the path without its tests leads to (`FTab.reported`, `STab.reported`), so C22 applies when none of these is a container across the
  end of a piece.
* **C04** partial.  Refuted; `[n]` is as if not written, for all paths and files; `[n:n+1]` selects the element.
  `c04_lists_partial`: from the path text, lists `[1, "a"]` and scripts `[(e)]` are accepted and have no effect either.
* **C05** partial.  Refuted by a witness.  `c05_listing_partial` gives the exact results of a path that ends in its only
  filter: `J.shown` (Spec/FilterPath) lists the tested properties of an element, and the element follows, whatever the
  filter says.  `c05_kept_partial`: the satisfying elements are among them in order.  `c05_constant_partial`: a filter
  without properties equals `[*]`.  Missing: the statement itself; an earlier filter in the same path.
* **C06** partial.  Refuted by a witness.  `c06_ignored_partial`: the query compiles to the table and context of the query
  without the last property, so every run is the same; `c06_listing_partial`: its results.
* **C07** partial.  Position automaton, subset construction, product, compression, table; induction on words.  For every path
  with at most 253 different names.  Refuted beyond: the set built for `..` and `*` has the letters below 256 only.
* **C08** proved.  Invariant on base/check/default over any sequence of added edges.
* **C09** proved.  Invariant of the worklist construction; word induction.
* **C10** proved.  Keys are only looked up by exact text.
* **C11** partial, **C14** partial.  Exact for tidy layouts, weaker report for all; refuted in general (`-` dropped,
  `{"a":1}` gives `1}`, line break before a colon, scalar documents).
* **C12**, **C13** proved.  Induction over the text.
* **C15** partial.  Exact unless the input starts with a blank; the shift is characterised for every input; refuted.
* **C16** partial.  From C11 and the refinement; refuted for untidy layouts.
* **C17** proved.  Part of the refinement; heights by an invariant over prefixes.
* **C18** partial.  Right within 100 levels, refuted beyond: results lost and wrong results added.
* **C19** proved.  Induction over the loading loop for any footprint; a byte 0xFF reads as end of file and is excluded.
* **C20** partial, **C21** partial.  Lossless when defined and no leading blank; cuts are at strings if no string ends in
  `,`, `{`, `[` and blanks.  Refuted in general.
* **C22** proved on tokens; on texts exactly when no reported container is open at a boundary.
* **C23** proved.  Fold over append.
* **C24** proved.  Refinement of the stack machine to the forest.
* **C25** partial.  Refuted (tables are shared per filter); proved for unnested elements.
* **C26** partial.  Induction over expressions; values of recorded texts.  Refuted for negative numbers.  The specification has a
  parameter (`Arith.blank`) for what a missing or null value stands for in orderings and arithmetic; the code reads zero.
* **C27** partial.  Refuted for missing properties; proved for numbers.  Where the reading without that parameter decides a document, the
  two select the same (`Props/Strict`: `strict_select`).
* **C28** partial.  Rewriting exact for every expression; reads released storage for references of two or more steps.
* **C29** partial, **C30** proved.  Refinement of the table to a log.  C29 is refuted for keys equal to uninitialised names.
* **C31** partial.  Simulation between a worker and one serial automaton per start state.  Refuted with slices.
* **C32** partial.  Each worker is split into one path per start state (`WorkerTrack`), each path is joined to the serial
  automaton (`ParStep`), `combine` follows (`ParMerge`, `ParChunk`).  Refuted in general, see section 5.  The simulation does not depend on the
  query; for filters (`Props/ParallelFilter`) the table says which locations report (`FTab.cutsOK`), and with C03 the output is the
  selection.  Slices: the simulation needs that no open entry at a cut has an index range (`doc_idx`); only elements of sliced
  arrays have one (`PathCtx.noIdx_loc`), so it suffices that no sliced array lies across a cut.
  With filters and slices (`FilterSliceLoc`, `Props/ParallelSlice`): the automaton at a location is dead or has read its word with every index but perhaps the last in its slice
  (`STab.live`), so only what the path without its filters leads to is reported and only elements of sliced arrays are counted (`STab.cutsOK`).
* **C33** proved.  Commutation of steps on disjoint components.
* **C34** proved.  Linked tuples refine to one list per start state.
* **C35** partial.  Exact condition for paths without filters (slices included, none below a descendant step), sufficient condition with filters (also with slices): at most
  5000000 tokens, since each token gives at most one tuple (`emit_length`); refuted.  For every query without filters the same condition in terms of the
  results of the run (`c35_every_exact_partial`), and one for every layout (`c35_every_partial`).  `Props/CapsSerial`: the other direction, as `Props/Caps` for parallel runs.  Where no flag is set, the stacks,
  tuples and texts of the automaton, the texts of tokens and the stack, buffer and output of the filter fit into the arrays of the headers.
* **C36** partial.  Refuted; exact condition under which a run is defined, and its value.
* **C37** proved, **C38** partial (refuted).  Scanner and parser on all written forms (`c37_lists`: also lists and scripts in
  brackets, names in double quotes; names in single quotes are not covered).
* **C39** partial.  Stack algebra of units; refuted for strings that end in a comma.
* **C40** proved.  Structural induction in the dead state.
* **C41** proved.  All states in all stacks stay below the number of states (`StateBound`); every unit of an unpruned worker
  has every state among its roots (`WorkerTrack`), so the search in `combine` succeeds.
* **C42** partial.  The simulation of C32 follows pruned state sets (`ParChunk`); a unit whose states lack the current one is
  exactly what the check of `combine` finds.  For filter queries the same (`Props/PruneFilter`).
  Filters with slices: `Props/ParallelSlice`; the filter queries of C57: `Props/PruneBelow`.
* **C43** partial.  The table contains the state at each token (C30), the control of chunk runs and whole-file run agree.  For
  filter queries the same (`Props/PruneFilter`).
  Filters with slices: `Props/ParallelSlice`; the filter queries of C57: `Props/PruneBelow`.
* **C44** refuted three times; what remains is C42 and what follows.  `c44_unit_text_partial` (`UnitSpan`): where the text of a unit begins and ends.
  `c44_reprocess_partial` (`Props/Again`): from a combined state that stands for the serial automaton, a unit processed again gives what the serial
  automaton finds on the tokens of the unit's text, and the new state again stands for the serial automaton.
  `c44_unit_partial`: the same with the unit in its chunk: if no scalar without quotes stands directly before the bracket that ends the unit and neither chunk nor
  text begins with a blank, the new tuples are those the serial automaton finds in the unit on its way through the chunk (`LexerUnit`: the tokens of such a text are the
  tokens of the unit; `PieceSim`: positions moved by a constant).  Both conditions are needed: `c44_false`, `c44_false_blank`.
  `c44_unit_lost_partial`: with such a scalar directly before the bracket the new tuples are those of the unit without this scalar, so exactly one token is lost.  Missing: the step from one unit to a
  whole `combine`, for which one would have to show that the combined state at each unit stands for the serial automaton although other workers pruned wrongly.
* **C45** partial.  Step by step no worker leaves its arrays (`WorkerSafe`, `ParSafe`), then no combination step (`ParSafeK`,
  `ParSafeAll`: `parallel_safe`), then the limits follow from the nesting, the token count and the scalars of a document
  (`DocSafe`).  With C01 the parallel output is the selection, without assumption on the run.  `Props/Bounds` ties the flag for texts
  copied across a cut to the bytes the two copies read (`c45_cross_flag_partial`); added after a wrong program with a weaker flag survived.  `Caps`, `Props/Caps`: the other direction of `parallel_safe`.  The tokens of the chunks: `c45_content_partial`.  The flags of single copies are characterised by the bytes read and written
  (`c45_span_flag_partial`, `c45_first_flag_partial`, `c44_copy_flag_partial`; `c35_close_flag_partial` for the serial automaton).  Where no
  flag is set in the end, the lists in every state of the run are as short as the arrays of the headers are long (numbers written out, not the constants of the model).  For filters (`c45_filters_partial`):
  entries of the stack copied by `combineQueryStacks` have no ranges of roots, those of the first worker have (`ParRooted`); how
  deep the latter reach follows from the lowest height of the syntax stack (`lowSs`), and from the document by where the open
  arrays begin (`DocFrames`).  Refuted without the limits and for filtered arrays that begin after the first cut.
  Filters with slices: `Props/ParallelSlice`.  `Props/PathSizes`: if the path ends in a name and selects scalars only, no cut tears a
  selected value, since a cut stands before a quoted key or string that follows a comma or an opening bracket; with C58 and `Dense` the limits are
  then stated on the path, the number of cores and the document.  For filter queries the filtered arrays must begin in the first
  `1 / cores` of the file, since the first chunk is longer (`partition_first`).
* **C46** partial.  `insertRange_has`: inserting a range that neither meets nor touches the map adds its characters
  (`CharSetProofs`); induction over the parts of the text.  Refuted for overlapping, adjacent, containing and reversed
  ranges and for bytes beyond ASCII.
* **C47** proved.  Each letter refines the partition exactly (`addSet_refines`); renumbering keeps it (`rearrage_spec`); a
  letter that is a union of classes becomes the list of them (`makeSet_spec`).
* **C48** partial.  Positions reached along `first` and `follow` are words of the language, by mutual induction over trees and
  lists (`RegexTreeProofs`: `RTree.acc`); the worklist explores the sets of positions.  Refuted for the empty word.
* **C53** partial.  A set with a `keepout` position has no row (`PosAut.stuck`), so a word is accepted if no proper beginning reaches such a position
  (`automaton_stops`).  If the marks are on items of the outermost list, these are the last positions: exactly the shortest words.
  Refuted for marks in inner lists and for copies of expressions; copies accept the whole language.
* **C49** partial.  The position sets do not depend on the letters (`RTree.mapL_sets`), so replacing letters and characters
  together keeps the language (`lang_convert`); with C46, C47 and C48.
* **C50** partial.  `unit_state` is a parameter of the model.  The first token of every chunk of a document writes the field before
  anything reads it (`Indet`: `doc_begins`), so plain runs do not depend on it, for any query.  Refuted for other files and for
  optimised runs; without the value `MATCHED` those do not depend on it either (for the same values in the runs that process a
  unit again).
* **C51** partial.  The state `combine` leaves after a piece is the state of one path through the automaton (`ParResume`: `After`); worker 0 goes
  on from it as the serial automaton does (`resume_sim`), the other workers as in C32; induction over the pieces (`chain_sim`), the filter
  by C23.  The document may be longer than one piece of the real size.  Refuted for nodes without `root_range` and for other contents of `finish_flag`.
  Optimised runs with a covering table: `Props/PiecesOpt` (`c51_opt_paths_partial`, `c51_opt_filters_partial`).
  Filters with slices: `Props/ParallelSlice`; optimised runs of the filter queries of C57: `Props/PruneBelow`.
* **C52** partial.  Storage after every step is written out as lists of objects (`threadsS_eq`, `freeWorkersS_eq`, `execute_major`); between
  pieces exactly worker 0, its list and the filter arrays are live (`Between`).  `c52_live_partial` and `c52_left_partial` hold for
  every function `combine` may compute, so also with reprocessing; `c52_values` says that the run is that of `Carry`.
  Refuted for the empty file and for the release of worker 0.
* **C54** partial.  A load overruns its buffer exactly if 2000 characters follow without a place to cut (`extend_short`, `extend_stop`); the
  search backwards never leaves the buffer in an object or array (`extendUnder_false`).  So all loads are safe for all footprints iff
  the document is `Dense`; refuted for arrays of numbers larger than the footprint.
* **C55** partial.  Induction over the loading loop: the stream of the last call stays open.
* **C56** partial.  Induction over the path and over filters: `last_st_generated` is written by every step but `[n]`, and no later step
  unwrites it (`construct_any`); from text by C37.  Refuted for `$` and `$[5]`.
* **C57** partial.  The rules of a filter path below steps `B` all start with `B` (`FPre`, `fpre_of_build`).  Below a selected part
  that is in no other one, the state of the automaton stands for the word read since (`FPre.stands`), so the tuples are those of
  the forest of that part (`part_tuples`); outside nothing is emitted (`outer_tuples`).  The forests of all parts are put one after the other
  (`partsForest`) and given to C24.  States of different parts may differ; the lemmas on filters are stated for any assignment of
  states to words (`FSem`).  The limit of 100 states is a hypothesis on the compiled table; without descendant steps it follows from the length of the
  query (`BelowQuery.of_levels`).  In several pieces and in parallel (`Props/FilterFootprint`, `Props/ParallelBelow`): as for C03, by `FPre.reported`
  and `FPre.cutsOK`.  Refuted for parts in parts and for `$.a[?(@.x)].*`.
* **C58** partial.  Two words after which every rule has the same items alive lead to the same state (`buildDfa_run_eq`); rules
  without repetition are chains, so the state is known from the number of letters and the rules alive (`chain_run_eq`).  This bounds the number of
  states from above; for a path the prefixes of a matching word are told apart by the rest of the word, which gives equality.  Refuted: the words over
  `{a, other}` of length n + 1 lead `..a` with n times `.*` to different states (`PathCtx.deep_states`, `FPre.deep_preds`).  Upper bound
  for paths with descendant steps (`PathCtx.desc_states`): the rule of the path alone determines the state, since the sets of the rules of its beginnings
  are restrictions of its set (`optRun_prefix_eq`); before the first repeated item one item is alive, from then on that item and any
  of those behind it (`aliveSets_step`).  The bound is met by `..a` with n times `.*` (`c58_deep_exact`); for most paths fewer states are reached.
  Filter paths (`FilterStates`): a node of the tree of steps and tested properties begins a registered word, and two nodes that lead to one state
  would let two different words stop at the same rule, so the count is exact (`FTab.states_exact`); below descendant steps the path before the
  filters is the common part of all rules, and the state is known from its items and the nodes of the tree that are alive (`FPre.desc_states`).
* **C59** partial.  Static criterion (`Expr.total`); one environment, in which every property is a string, already refutes every other
  expression (`total_of_strings`).
* **C60** proved for the merge step.  `Marked` describes the list of a worker as results per element with a mark after each; `inSliceOf`
  (Spec/Slice) is the part that lies in the slice.  What workers leave for elements that are not objects is refuted under C32.
* **C61** partial.  Invariant of the table (`Held`): distinct recorded keys stand for its entries one by one, so there are at most as many
  entries as different keys, whatever the bytes of the memory were; the states of an entry are different states of the automaton.  Conversely
  every recorded key names an entry and an entry has one name, so more than 1000 keys fill the table (`c61_too_many`).  `Spec/Keys` lists
  the keys of a document.  Refuted without the limits.  `c61_flag_partial`: a table that is not flagged fits into its arrays; `c61_flag_run_partial`: so does an optimised run
  with it that is not flagged.
* **C62** partial.  `Spec/Shape` lists where keys and arrays begin, with their locations.  The control of the serial run at a key or an
  array is a function of its location (`trace_doc`, `state_ctl`); without slices it does not depend on the indices in it (`shape_state`).
  So a table learned from one document covers every document of the same shape (`c62_covers_shape`, no limits); keys that the first does
  not have at all are not found in the table unless uninitialised memory held them (`c62_covers_known`).  C43, C45 and C51 give the runs.  With slices the same for equal locations (`c62_covers_places`).
  `Props/TrainMore`: filters below other steps, filters with slices, slices below descendant steps.  Refuted without the condition on the shape, and for slices
  with documents that differ in the indices.

## 5. Disagreements between code and properties

Proved (theorem in brackets):

1. A literal directly after a colon is read up to and with its terminator: `{"a":1}` gives `1}` [c14_false, c01_false].  As
   a filter operand it is then null.
2. A line break between a key and its colon turns the key into a value [c11_false_key, c01_false_key]; a scalar document
   gives no token [c11_false_top]; the minus sign of a number is dropped [c14_false_all].
3. An input with a leading blank shifts every container text by the number of blanks [c15_false_blank, c20_false_blank].
4. More than 100 levels: pushes are dropped silently, results are lost or wrong [c18_false, c18_false_extra,
   c18_false_missing].
5. `[n]` is ignored [c04_false], and so are lists, names and scripts in brackets [c04_false_names]; `[0:0]` selects everything [c02_false_empty]; below `..` a slice loses matches
   [c02_false_desc].
6. A filter at the end, or a result that its filter tests, switches filtering off: every tested property and every
   element is returned [c05_false, c06_false, c03_false_last, c03_false_returned].
7. An element that is an array is not tested, and results in it are judged by the filter further out [c03_false_array].
8. Elements of one filter nested in each other share their table of conditions [c25_false].
9. A missing property satisfies `@.p < n` for positive n [c27_false].
10. References `@.a.b` are rewritten with a use after free [c28_live_false].
11. `&&` and `||` have one level [c38_false]; `%` has none [c37_mod_unlevelled].
12. The constraint table compares keys with uninitialised names [c29_false].
13. Cutting: runs past the end when no cut is left [c20_false]; cuts inside strings that end in `,`, `{` or `[`
    [c21_load_false, c21_partition_false, c39_false], with wrong results [c22_false_strings, c32_false_strings]; `partitionFile` always overruns or returns a missing chunk
    [c20_file_partial].
14. Several pieces: the tuple list of the first piece is read after its release, or its results are repeated, depending on
    an uninitialised flag [c36_false, c36_stale]; containers across a piece boundary are lost [c22_text_false].
15. Parallel runs: text lost when a worker learns late that it is inside an array [c32_false]; wrong text for an object
    over three chunks [c32_false_object]; nothing reported for an element torn by one cut, if its array began before the chunk
    [c32_false_element]; scalars of a sliced array across a cut are not counted [c32_false_slice]; an element
    of a sliced array of objects that begins in a middle chunk and ends in the next is selected whatever its index [c32_false_records]; elements that are arrays
    are not counted behind a cut [c32_false_rows]; element counts
    start at 0 in each chunk [c31_false].
16. Buffers: results of 999 or more characters and keys of 3999 or more overrun [c35_false_result, c35_false_key].
17. Reprocessing: the text of the unit ends before its closing bracket, so a number directly before the bracket is lost
    [c44_false]; nodes copied by `combineQueryStacks` have no root range, which the second run follows [c44_false_ub].
18. Parallel buffers: when a sliced array lies across a cut, the text of a selected object is compared before it is filled in
    [c45_false_slice]; a worker keeps one origin per start state and level in arrays of 500, so `$.a.b.c.d` overruns them on 84
    nested arrays [c45_false_nesting]; queries of more than 100 states overrun the start states of a unit [c45_false_states].
19. Paths with more than 253 different names: `SetConverter::Convert` gives the set of `..` only the letters below 256, so a name
    with a later letter is never skipped by `..` where it could also be the next name [c07_false].  (Documents in which such a
    path selects anything are nested more than 100 deep, so C35 fails for them as well.)
20. Parallel runs with filters: an element of a filtered array that lies across a cut is closed through an entry whose ranges of
    roots were never set, if the array does not begin in the first chunk [c45_false_filter].
21. Sets of characters (not reachable from JSONPath): overlapping or adjacent ranges, a range over an earlier character and
    reversed ranges are undefined or right depending on the compiler [c46_false_overlap, c46_false_inside,
    c46_false_adjacent, c46_false_order, c46_false_reversed]; bytes beyond ASCII index far outside a vector [c46_false_utf8];
    the copy constructor loses the complement [c46_false_copy].
22. The first state of an automaton is never a stop state, so an expression that allows the empty word does not match it
    [c48_false_empty].
23. `initUnit` leaves `unit_state` unwritten: with a garbage value the start of a unit is not recorded and an offset from NULL is
    taken when the unit is processed again [c50_false_optimised]; on malformed files the printed results depend on it
    [c50_false_plain].
24. `combineQueryStacks` does not write `root_range` of the nodes it copies; in the next piece of a long file worker 0 reads it
    [c51_false_roots].  So a parallel run over a file above 250 MB is undefined as soon as a piece ends inside a container
    deeper than anything its first chunk contained.
25. `finish_flag` of `ParallelAutomata` is never initialised; if it does not hold 0 after a piece, the tuples of all earlier pieces
    are kept and their results printed again [c51_false_flag].
26. A parallel run over an empty file ends with `destroyStreamingContext` following pointers that were never written
    [c52_false_empty]; worker 0 and its tuple list are never released [c52_false_left].
27. An item marked as non-greedy in an inner list makes the automaton stop there: `(a*?b)c` accepts nothing [c53_false_inner]; on an
    alternative the mark has no effect [c53_false_or]; the copy of an expression loses it [c53_false_copy].
28. The load buffer has room for 1999 characters beyond the footprint; in a large file with 2000 characters without a string after `,`, `{` or
    `[` there (an array of numbers) it is overrun [c54_false].  The results of C01, C02, C22 and C51 for several pieces are about
    loads that stay in the buffer.
29. `loadBoundedInputStream` does not close the file when nothing is left to read [c55_false].
30. `$` and paths of single indexes such as `$[5]` are read by the parser, but `last_st_generated` is then read without having been
    written [c56_false].
31. With `..name` before a filter, the end of an inner element clears the conditions of the outer one and its verdict also discards
    results of the inner one [c57_false_nested].
32. A wildcard after a filter covers the rule of the tested property: no state is left for it, `acc_id2state` gives -1 and the
    table of subtrees is read at -1 [c57_false_wildcard].
33. `$..a.*.*.*.*.*.*` (seven steps) is compiled to at least 128 states.  A parallel run on two or more chunks writes past
    `query_state[100]` on the stack of its second worker, whatever the file [c58_false, c58_false_parallel].
34. `$..a.*.*.*.*.*.*.*[?(@.x)].b` has a filter state above 99: `initPredicateFilter` writes past `predicate_conditions[100]` before any
    input is read, also in the serial run [c58_false_serial].
35. Negative numbers of a document are null in filters: `@.x == -5` never holds, `@.x < 0` neither [c26_false, c26_false_negative, c03_false_negative].
36. Filters can fault: `7 % @.y` with `y` zero or missing, also behind `@.y != 0 &&` [c59_false_remainder, c59_unguarded].
37. A query that ends in a filter below another filter reads the operator of its expression as a string [c05_false_nested].
38. A selected array across a cut is copied into a buffer that is one byte too short [c45_false_array].
39. With a constraint table, a key of 99 characters or more overruns `token_name[100]` in every worker but the first, which copies the key
    before looking it up [c45_false_key].
40. Below a descendant step a slice can be ignored: `$..a[0:1].a[*]` on `{"a": [{"a": [0 ,{"a": [1 ]}]}]}` reports the 1, which only
    element 1 of an array leads to; the state at that element stands for the whole path, which has no bounds [c02_false_wrong].
41. `[0:0]` before other steps makes its state a filter state without expression; at the end of an object a null pointer is evaluated
    [c02_false_empty_inner].
42. Collecting constraints has no limits of its own: a key of 99 characters overruns `token_name[100]` [c61_false_key], the 1001st
    different key is written behind `constraint_info[1000]` [c61_false_many, c61_too_many].
43. A table learned from one document and used on another of a different shape loses results [c62_false]; with a slice it is enough that
    an element is in the slice in one document and not in the other [c62_false_slices].  The name of the entry for arrays is never written: if
    its memory holds a key of the second document that the first does not have, results are lost too [c62_false_memory].
44. A unit that begins with a key is processed again from directly behind the comma, with the blank before the key; `substring` leaves out leading blanks
    before it counts, so objects in the unit are printed one character too late: `$.a.b` on
    `{"a": {"p": {"kkkkkkkkkkk": 1, "l": 2 }, "b": {"z": 9 }, "c": 3 }, "y": {"t": 4 }}`, three threads, prints `"z": 9 },` [c44_false_blank].

Found while reading, not stated as theorems: `unit.start` stays NULL for a unit that begins with a scalar element; a start found
while reprocessing is relative to the text of the unit but used relative to the chunk; reprocessing prints progress lines between
the results; all nodes, not only the roots, are copied into a unit when it is closed; the preset `\\w` lacks the digits and
its ranges need a certain order of evaluation; a set that ends in a backslash is read past its end, one that ends in `-` loses it; `executeParallelAutomata` is declared void and returns a value; `combine` has no case for scalars and leaves the root
ranges of combined nodes indeterminate.

## 6. Axioms per theorem

Output of `#print axioms` for every theorem in MANIFEST.json.

* no axioms: c45_cross_start_partial.
* `propext`: c11_false, c11_false_key, c11_false_top, c14_false, c26_complementary, c28_distinct, c33_workers, c38_value_partial, c46_false_overlap, c46_false_inside, c46_false_adjacent, c46_false_order, c46_false_utf8, c46_false_reversed, c46_false_copy.
* `propext, Quot.sound`: c10_unmentioned_keys, c11_positions, c19_lossless, c19_terminates, c19_boundaries, c22_tokens, c28_live_false, c29_false, c30_learned_sound, c30_file_sound, c30_same_run, c33_schedule, c35_flag_partial, c35_close_flag_partial, c36_collect, c44_unit_text_partial, c44_copy_flag_partial, c45_cross_flag_partial, c45_worker_flag_partial, c45_flag_partial, c45_flag_again_partial, c45_content_partial, c45_span_flag_partial, c45_first_flag_partial, c54_small, c54_no_quotes, c54_false, c55_left_open_partial, c55_false, c61_flag_partial, c61_flag_run_partial.
* `propext, Classical.choice, Quot.sound`: c01_serial_exact_partial, c01_serial_shows_partial, c02_footprint_partial, c01_false, c01_false_key, c37_query_partial, c02_slices_exact_partial, c02_slices_shows_partial, c02_false, c02_false_empty, c02_false_desc, c02_actual_partial, c02_one_slice_partial, c02_false_wrong, c02_flat_partial, c02_flat_shows_partial, c02_once_partial, c02_chosen_footprint_partial, c02_empty_last, c02_empty_exact_partial, c02_false_empty_inner, c03_select_partial, c03_slices_partial, c03_false_array, c03_false_returned, c03_false_last, c03_false_empty, c03_false_slice, c03_footprint_partial, c03_footprint_slices_partial, c03_strict_partial, c03_false_negative, c04_ignored_partial, c04_slice_partial, c04_false, c04_lists_partial, c04_false_names, c05_listing_partial, c05_kept_partial, c05_constant_partial, c05_false, c05_false_nested, c06_ignored_partial, c06_listing_partial, c06_false, c07_accepts_path_language_partial, c07_false, c08_compressed_lossless, c08_add_keeps, c09_product_last_rule, c10_renaming, c10_names_of_path, c11_tokens_partial, c11_tokens_shows_partial, c12_string_token, c12_unterminated, c12_raw_ends, c13_progress, c13_inside, c13_terminates, c14_scalars_shows_partial, c14_scalars_exact_partial, c14_false_all, c15_verbatim_partial, c15_slices_any_input_partial, c15_shifted, c15_false, c15_false_blank, c16_layout_partial, c16_layout_exact_partial, c16_results_partial, c16_false, c16_false_key, c17_member_balanced, c17_element_balanced, c17_document_balanced, c17_heights, c18_within_limit_partial, c18_false, c18_false_extra, c18_false_missing, c20_lossless_partial, c20_dense_partial, c20_file_partial, c20_false, c20_false_blank, c21_load_partial, c21_load_false, c21_partition_partial, c21_partition_false, c22_text_partial, c22_footprint_partial, c22_text_false, c22_chosen_partial, c22_strings_partial, c22_false_strings, c23_batches, c24_nested, c25_false, c25_unnested_partial, c26_semantics, c26_logical_total, c26_missing, c26_text_value_partial, c26_container, c26_present_partial, c26_false, c26_false_negative, c27_ordering_partial, c27_false, c27_false_run, c28_rewrites, c28_live_partial, c29_lookup_partial, c29_array_partial, c31_states_partial, c31_document_partial, c31_false, c32_paths_partial, c32_scalars_partial, c32_false, c32_false_object, c32_false_element, c32_false_slice, c32_filters_partial, c32_filters_exact_partial, parallel_sim, parallel_doc, c32_below_partial, c32_filter_slices_partial, c32_false_records, c32_false_rows, c32_chosen_partial, c32_strings_partial, c32_strings_filters_partial, c32_false_strings, c34_chain, c34_worker, c35_exact_partial, c35_filter_partial, c35_filter_slices_partial, c35_false_result, c35_false_key, c35_every_partial, c35_every_exact_partial, c35_filter_flag_partial, c35_serial_flag_partial, c35_pred_flag_partial, c36_single_partial, c36_released, c36_large, c36_stale, c36_stale_output, c36_defined, c36_false, c37_parenthesised, c37_levels, c37_path, c37_unambiguous, c37_mod_unlevelled, c37_lists, c38_false, c38_left_partial, c38_rejects, c39_units, c39_chunk, c39_run, c39_document_partial, c39_false, c40_dead_silent, c40_compiled_dead, c41_no_table, c42_pruned_paths_partial, c42_pruned_filters_partial, c42_filter_slices_partial, c42_below_partial, c42_chosen_partial, c43_covering_paths_partial, c43_same_file_partial, c43_covering_filters_partial, c43_filter_slices_partial, c43_below_partial, c43_chosen_partial, c44_false, c44_false_ub, c44_reprocess_partial, c44_unit_partial, c44_unit_lost_partial, c44_false_blank, c45_paths_partial, c45_exact_partial, c45_filters_partial, c45_filters_exact_partial, c45_same_file_partial, c45_same_file_filters_partial, parallel_safe, c45_false_nesting, c45_false_states, c45_false_filter, c45_below_partial, c45_same_file_below_partial, c45_false_array, c45_filter_slices_partial, c45_same_file_filter_slices_partial, c45_false_key, c45_false_slice, c45_scalars_partial, c45_levels_partial, c45_desc_partial, c45_filters_levels_partial, c45_chosen_partial, c45_flat_partial, c45_chosen_same_file_partial, c45_strings_partial, c46_set_partial, c47_classes, c48_automaton_partial, c48_false_empty, c49_sets_partial, c49_classes_partial, c50_documents_partial, c50_optimised_partial, c50_false_plain, c50_false_optimised, c51_paths_partial, c51_paths_exact_partial, c51_scalars_partial, c51_filters_partial, c51_opt_paths_partial, c51_opt_filters_partial, c51_single, c51_false_roots, c51_false_flag, c51_below_partial, c51_filter_slices_partial, c51_opt_filter_slices_partial, c51_opt_below_partial, c51_chosen_partial, c51_chosen_exact_partial, c51_opt_chosen_partial, c52_live_partial, c52_left_partial, c52_values, c52_single, c52_false_empty, c52_false_left, c53_shortest_partial, c53_copies, c53_false_inner, c53_false_or, c53_false_copy, c54_exact, c54_documents_partial, c56_exact, c56_text_partial, c56_false, c57_prefix_partial, c57_levels_partial, c57_clean_partial, c57_false_nested, c57_false_wildcard, c57_footprint_partial, c58_levels_partial, c58_fits_partial, c58_filters_partial, c58_filters_exact_partial, c58_below_desc_partial, c58_desc_partial, c58_desc_fits_partial, c58_deep_exact, c58_exponential, c58_false, c58_false_parallel, c58_false_serial, c59_exact, c59_run_partial, c59_unguarded, c59_false, c59_false_remainder, c60_kept, c61_text, c61_too_many, c61_document, c61_document_iff, c61_query_partial, c61_paths_partial, c61_filters_partial, c61_learn_run_partial, c61_false_key, c61_false_many, c62_covers_shape, c62_covers_known, c62_covers_places, c62_shape_partial, c62_known_partial, c62_places_partial, c62_filters_partial, c62_pieces_partial, c62_below_partial, c62_filter_slices_partial, c62_chosen_partial, c62_false, c62_false_slices, c62_false_memory.

## 7. Wrong programs tried

`seeded/LOG.jsonl` has one line per deliberate error in the model, the claim it breaks and the theorems that stopped proving.
