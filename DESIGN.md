# Formal model of gorules/zen in Lean 4 — design

The model lives in `lean/Verif/`. Every definition carries a comment with the file and
lines of `/repo` it models. Model files (`*/Model.lean`, definitions only), helper lemmas
(`*/Lemmas.lean`), small specifications (`*/Spec.lean`, written without reference to the model's
helpers) and property theorems (`Props/C*.lean`, one file per property) are kept apart.

## Trusted base

* Lean 4.33.0's kernel, and the three standard axioms `propext`, `Classical.choice`,
  `Quot.sound`. No axiom is added; no `sorry`, `native_decide`, `bv_decide`.
* The reading of the Rust source: the theorems are about the model, the tie to the code is
  the citation on each definition.
* The following are *parameters* of the model (theorems hold for every value of them, except
  where an explicit hypothesis is written in the theorem):
  - rust_decimal arithmetic with its rounding and overflow (`NumOps`): checked add, sub, mul,
    div, rem, powd, conversion to text, parsing. The carrier of numbers is `Rat`
    (numeric value only; trailing-zero scale is not represented, as Rust's `==`/`cmp` ignore it).
  - chrono time-zone and ISO-8601 parsing; dates in the expression model are opaque
    time stamps with an ordering, the calendar helpers are modelled separately on civil dates.
  - jsonschema validation, JS function nodes (QuickJS), HTTP, custom node adapters: a node
    handler is an arbitrary function from inputs to results.
  - hash maps: iteration order of the `Large` representation is an arbitrary permutation.
* Not modelled: threads/async scheduling (the code is single threaded per evaluation), memory
  use, performance, `unsafe` string slicing, natural-language projection, completion, the repeated-derivation hint of the linter.

## Per-property plan

| id | what is modelled | how it is proved |
|----|------------------|------------------|
| C01 | `VariableMap` as Small(assoc list)/Large(assoc list in arbitrary order) with SPILL_AT = 32 | refinement to `Key → Option V`, induction over operation lists |
| C02 | `PartialEq` as length + pointwise lookup | equality ⇔ extensional equality, using no-duplicate-keys invariant |
| C03 | `merge_variables` on tree values | structural induction; spec = recursive merge-patch given by lookup equations; idempotence |
| C04 | `dot`, `dot_insert`, `dot_remove` on tree values | induction on path; frame by divergence of paths |
| C05 | `Heap/`: addresses → cells, values are trees of addresses; `dot_insert(_detached)`, `merge(_clone)`, `depth_clone`, `deep_clone`, `==`, cleaner | footprint semantics (`Den`): cells that existed before the call are unchanged; what the result shows equals the tree-level result |
| C06 | `Core/Json`: strict and lossy conversion, conversion back, direct deserialization; the number parsers and the printer are parameters, what is assumed of them stands in the theorems | structural induction; documents compared by `SameJ` (numbers by value, objects as maps) |
| C07 | `Heap/RefWire`: counting, ids, writing over the heap; two-pass reading that allocates and fills cells; order of addresses and of hash maps as parameters; dates and intervals as what they convert to (parameter) | relation `Wire` (what a wire value stands for, references followed finitely often) established by the writer, `Built` (what has been read) by the reader; induction on both gives the data of the result |
| C08 | `Types/VType`: `satisfies`, `merge`, `widen`, `get`; inference of types from JSON (`Types/Inhabits`); address equality as an oracle | `merge` restated as in the code (`merge_eq`), induction on size; values of a type (`Inh`) as independent meaning; counterexamples where a law fails |
| C09 | AST, compiler to opcodes with relative jumps, VM step function, big-step semantics | simulation by structural induction, `∃ fuel`; determinism |
| C10 | VM object with stack/scopes carried across runs | run clears state; induction over histories |
| C11 | corollary of the VM model | direct |
| C12 | closure functions compiled to loops | loop invariants inside C09, then corollaries against `List` functions |
| C13 | alias stack, scope lookups | corollaries of C09 |
| C14 | isolate state (env, locals, reference cache, opcode cache) | invariant: caches hold what recomputation would give |
| C15, C16 | `VmInterval::includes`, `to_array` | order reasoning over ℚ, induction on range length |
| C17 | `Parse/Unary`: the parser of table cells on top of `Parse/Parser`, and the front end (lexer, parser) used by the isolate. `Parse/Cell`: tests, how they are written, when they hold | tokens of a cell are read back; the tree evaluates to the verdict (through C15, C47); `C17_verdict` goes from the source text to the result of `run_unary` |
| C18 | `Parse/Parser`: the whole expression parser over tokens (operators, accesses, calls, closures, intervals, objects, templates, assignments); precedence tables as in constants.rs; fuel shown sufficient (`binExpr_enough`). Error texts, spans and the 8-bit depth counter are left out. `Parse/Syntax`: written expressions as inductive relations; left out of it: assignments, an empty array or object together with `..` in the same source, intervals that open with a curly or closing bracket | written expressions are read back (induction on length), so they are unambiguous; printer with minimal parentheses; conversely every parse result groups by strength, which gives minimality over all token sequences |
| C19 (partial) | `Parse/Lexer`: every scanning function over the bytes of the source, templates included; `Parse/LexSpec`: a grammar of longest lexemes, independent of the lexer | the lexer and the grammar give the same tokens for every source (iff); from the grammar: spans in order, text of the span, white space between, maximality; failures. False for some templates (see findings) |
| C20 (partial) | `Builtins/Decimal`: representable decimals and rounding (to nearest, checked to 96 bits); `Builtins/Funcs`: every built-in function with its argument checks, crash as a result | list lemmas against counting, sorting and `List.sum`; counterexamples where rounding breaks the claim |
| C21 (partial) | `merge`, `mergeDeep`, `flatten`, `keys`, `values` of `Builtins/Funcs` | maps by their lookups; `Deep` as independent relation, unique; associativity through a normal form |
| C46 (partial) | `Builtins/Funcs`, `Builtins/Dates`, `Builtins/Registry`: functions by name, deprecated functions, methods of dates; integer overflow panics or wraps depending on the build | crashing calls characterised by equivalences; occurrences of nodes in expressions (`Node.Occ`) for whole runs |
| C22 (partial) | `Date/Duration`: units, parser over remaining characters with byte offsets, machine-integer limits; overflow without a check panics or wraps depending on the build | each turn of the loop as an equation (`loop_eq`); the notation as an inductive relation, unique; false for months and years as stated |
| C23 (partial) | `Date/Civil`: the Gregorian calendar with day numbers; `Date/DateTime`: local times, zones as arbitrary offset functions with chrono's `single` resolution, `start_of`, `end_of`, `set`, `add_duration`, comparisons, `diff` (rationals for `f64`), and the deprecated functions of helpers.rs. Trusted: chrono follows the calendar; no leap seconds; range of instants abstract. Not modelled: parsing and formatting of dates | day numbers and dates are inverse, ordered alike; units are intervals of local times; chains of local changes; false for quarters as stated |
| C24, C25 | `NumberCover`, `ArmTest` | dense-order argument; induction on tests; which conditions are recognised is stated as a grammar of comparisons of a plain path with literals (`C25_recognises`) |
| C26–C28 | `Engine/Table`: node handler, index build and lookup over bit sets; evaluator `Ev` (scope and reference cache, tied to `Iso` by `C14_only_references_matter`) | meaning of a table in `Engine/TableSpec`; index soundness from C25; induction over rows |
| C29–C31 | `Engine/Graph`: stable graph, edge removal, walker; `Engine/Engine`: handlers, nested decisions | `GraphSpec` as specification; invariants over steps, ranks for termination |
| C32 | `Engine/Loader`: in-memory loader, caching loader one call at a time and with interleaved calls | induction over histories; invariant over interleavings |
| C33 | `Engine/SchemaDict`: rewriting, search for imported dictionaries | structural induction; worklist invariant and measure |
| C34, C35 | `Engine/Engine`: transform attributes around an arbitrary stateful handler; cleaner | call sequences as specification; structural induction |
| C36, C37 | `Policy/Driver`, `Policy/Paths`: driver with ran / in-progress sets, table of writers; fuel eliminated by termination proof | invariants over the recursion |
| C40 | `Policy/Hydrate`: pools and hydration, on values and on the heap | C04 for each field; concrete heap for the finding |
| C38 | `Template/Template`: lexer with byte offsets (slicing inside a character is a panic), parser, interpreter over any stateful evaluator, `Display` | token lists characterised (`Canonical`, `Balanced`), segments read back; induction |
| C39 | `Policy/Validator`: the whole validator with error paths and texts | places reachable in the input as specification; induction on the depth bound |
| C41, C45 | `Policy/Imports`: queue over imports, stack over undirected imports | reachability invariants, measure for termination |
| C47 | the operators of the virtual machine | case analysis on operand kinds, against `Rat`, `List` and string functions |
| C43 | `Policy/Blocks`: both phases of match blocks and policy tables, row index, trace flags | rows and cells to use specified by lookup (`SelSpec`), loop invariant, list of writes |
| C42 | `Policy/Coverage`: coverage checks of match blocks and table columns, path resolution in types | both directions of the check from C24; arms and cells evaluate by C25; selection by C43 |
| C48–C50 | result of the graph, expression nodes, input/output nodes with schema | from the walker's invariants (C29); induction over items |
| C51–C53 | string, rounding and conversion functions of `Builtins/Funcs`; letter case, regular expressions, reading and printing of numbers are parameters | prefixes, parts and cuts (`Splits`) as inductive or existential specifications, shown unique; rounding by nearness and ties on ℚ, representability of results |
| C54 (partial) | getters and deprecated parts of dates (`Builtins/Dates`) on the calendar of C23 | ISO week by the Monday on or before 4 January; parts unique and in range; today/tomorrow for constant offsets only |
| C44 (partial) | `Workspace/Model`: documents, snapshot, cached parse results, shallow passes, components, units, enriched states, graph analyses with recorded dependencies, function types; parsing, the passes and the graph analyzer are arbitrary functions (the analyzer asks the database as it goes) | policies: every cache entry is the value computed from scratch, kept by every operation. Graphs: derivations of an analysis from the documents alone (`Ana`), shown unique and unaffected by what the recorded dependencies leave out; for acyclic graphs, steady imports, no late resolver. 64-bit hashes are assumed not to collide (`KeyInj`, `StampInj`), the shallow pass not to depend on the scope (`ScopeFree`), an address not to be reused for another content (`Coherent`; cache entries keep what they compare alive) |
| C55 | `Analysis/Reads`: the walk over an expression with its scope of locals, bindings and aliases, the chains of members, and the flattening to paths; evaluation is that of C01 | two runs side by side: scopes that agree on a growing set of paths; induction over expressions with a second statement for chains whose path is not yet emitted. Already the reads not marked unresolved suffice, also when `$` is set beside the data (`C55_plan_complete`); what is read through an alias is reported under its source (`C55_alias_paths`). Spans, references and `pointer_collection` are left out |
| C56 | `dictLoop`, `graphDictionaries` of `Workspace/Model`, after any history of the workspace of C44 | the search goes level by level: an invariant of the queue split into what is `k` and what is `k + 1` imports away; the snapshot holds the parsed documents by the invariant of C44 |
| C57, C58 | `Policy/Unit`: reads and writes of blocks as the analysis records them, the blocks' two phases, the driver of C36 over them. Left out: entities (so no block is iterated), checks of the request, the trace, sharing of values | `Policy/Confluence`: any driver over blocks that are faithful to their reads reaches a state described by a certificate (each block that ran has an entry state that agrees with the final one at its reads), and two certificates agree; `Policy/UnitProof` shows the blocks faithful, from C55 and C43, for policies that are `Sound` (decidable, shown for an example policy with all four kinds of blocks) |
| C59 | the loop of `assertion.rs` in `Policy/Unit` | groups as trees (`Item`), flattened to depths; every list of depths is such a flattening; the stack of frames is related to the open groups |
| C60 | `Types/Provider`: the type checker (`determine`) with its signatures, strict and not; recorded are the type and whether an error is reported, not its text or place. `same` stands for the equality of types that compares addresses first | `Types/Sure` names the expressions meant; induction over expressions on the evaluation of C01 with scopes that fit their types (`Types/Sound*`), merges by C08; results of functions by their model in `Builtins`; methods are a parameter with typed results (`MethodsTyped`), shown for the model of C22/C23 (`C60_methods`) |
| C61 | `hintOf`, `enumCheck`, `disjoint` of `Types/Provider` | case analysis on both types against the values they admit; for whole comparisons with C60 |
| C62 | the checker of C60 with the failures of the operators in `Expr/Ops`, `Expr/Eval`; `Excusable`, `Firm` in `Types/Firm` | induction on the expression; C60 gives the types of the operands, case analysis on them shows that the operator applies; loops and assignments by induction on their lists |
| C63 | the table hints of the linter in `Policy/Lint`, on the tables of C43; `Replaces`, `PTable.merge`, `RowsApart` in `Props/C63` | a flagged row serves no column (`RowsWithin` in `Policy/LintLemmas`), so dropping it leaves the selection of C43 the same up to renumbering and the second phase writes the same; an exact condition for the first phase to succeed (`select_ok_iff`); for merged columns the groups always contain or fall through to a row without a condition |
| C64 | the hint on parentheses in `Parse/ParenLint`: sites and findings, a finding carrying the tree without the reported pair; written expressions of C18; `bare` (no parentheses at all) in `Expr/Bare` | induction on written expressions with a site (`Parse/ParenLintMain`): the content fits the level of the place (`Written.raise`) and its open end demands no less than the operator that follows (`Written.high`); value through `bare`: a lenient path without its parentheses reads the same (`bare_eval`). Assignments are not among the written expressions; the hint works on tokens, the spaces between them are not looked at |
| C65 | the hint on chained conditionals in `Policy/ChainLint`; `Chained`, `Mentions`, `Instead` and a block run once (`Body.once`, on `Policy/Unit`) in `Props/C65` | the first link whose condition is not `false` decides (`chain_eval`); the arms before it are false, so the match block comes to the same arm by `C43_match_first` or to the same error by `C43_match_error`; booleans from the type checker through C60. Reads: an expression without assignments leaves the scope of the dependency walk alone (`resolve_plain`). Writing the arms as text is not part of the code, so `Instead` takes texts that are read as the links. What is demanded between the two phases is not run |
| C66 | the parser of C18 and C17, the grammar of `Parse/Syntax` and `Parse/Cell`; `usual` (Parse/ParseExact): the trees the grammar can make | from a result without errors the tokens are cut back into written parts, function by function (`Parse/ParseExact`); with `C18_written` and `C17_parsed` an equivalence. Without `=` and `..` among the tokens every error-free result is usual (`Parse/ParsePlain`), so the equivalence is with the language itself. Outside of the grammar: assignments (lists of them at the top: C74); in sources with `..` empty arrays and objects and intervals with other brackets |
| C67 | `run_iterated` on the heap of C05 (`Policy/Iterate`): binding, the copy with the owner, writing back, the loops; what a block evaluates is any list of steps that allocate and write. Not modelled: traces, the evaluator's caches | two heaps run in step, one written through the scope, one on the instance (`Policy/IterateProof`, `Rel` in `IterateData`); the cells of each instance are followed through the loop (`IterateLoop`); `View`, `Ran`, `Made` say what a turn sees and does |
| C68 | the graph of the paths (`Policy/DepGraph`): nodes, the edges up to what a path is part of and from reads to writes, the search, the listed inputs, the paths that lead nowhere, and a request (goal check, missing inputs, run). Not modelled: entities, validation of the input, references, the order kept for traces | the search by counting the edges into what was not seen; a block that a run asks for has a write upstream of the goal (`Policy/DepGraphProof`), using C37 for who is asked and that no block asks for itself; two runs from different starts (`Policy/Starts`, after the confluence proof of C57) |
| C69 | `Edit/Rename`: the walk of `walk_renamable` over an expression, on the tree, with the scope of the analysis of C55; `Edit/Text`: spans of bytes and characters, replacing spans, rewriting the strings of a block, spans in write keys. Not modelled: renaming fields, graph properties and nodes; JSON texts inside of graph nodes; that the span of an identifier is where its token is | the walk is `sub` (every occurrence not bound by an `as`) where the analysis knows all bindings (`clear`, `Edit/RenameSub`); two evaluations in step, on data that differ in one name (`Edit/RenameProof`); texts as pieces with marked occurrences (`Edit/TextProof`) |
| C70 | `Policy/CondSchema`: `conditional_schema` with the collection of match blocks, the discriminating property, both forms of the answer, and the lists of inputs and outputs it divides. Not modelled: types in the answer, entities, decision graphs | the sets as predicates over `Upstream` of C68; the run by two runs in step (C68): a block that runs writes something outside of what is listed for arms, or something that an arm that was taken needs (`Placed`, `run_only`); the arm taken is the first whose test holds of the input's value (C42, C58) |
| C71 | `Analysis/Flow`: `FlowSource::from_node`; `Policy/Instances`: `arm_instance_source`, `resolve_instance_targets` with memory and visiting set (fuel, shown to be enough), `declared_hop`. Not modelled: how the dependency graph collects the sources of several blocks, `register_computed`/`next_entity`, decision tables and asserts (their analysis gives no source) | sources as an inductive predicate on expressions, resolution as an inductive predicate on places; memory and cycles removed by an exactness proof against a plain recursion; soundness by induction over the derivation, carried to runs through C58 | all values, orders, policies |
| C72 | `Policy/DepTree`: `dependencies`, `build_dep_node` with its memory, visiting set and taint (fuel, shown to be enough), the reads of a block per property (`write_dependency_expr_ids`, `allowed`, `finish`). Not modelled: the types in the nodes, entities, `field_dependency_node` (fields of computed objects) | the memory removed by an invariant (remembered trees are complete and cross nothing that is being visited); names by walks without repetition; what feeds a property as an inductive predicate; inputs through the exact graph of C68 | all policies, properties, cycles, inputs |
| C73 | `Builtins/Registry`: names and arities of functions, deprecated functions and date methods, beside the implementations already modelled (`Builtins/Funcs`, `Dates`). Not modelled: chrono's zone database (a zone is any function), parsing and printing of dates (parameters) | arities: each implementation shown to fail on fewer, succeed once on the minimum, ignore the rest and look at the last argument, and these four facts determine the numbers (`C73_determined`); methods: by the theorems of C23 about the calendar |
| C74 | the parser of C18 and the evaluation of C16; `Path`, `Target`, `More`, `Assigns` (Parse/Assign): the written form of a list of assignments, at the top of a source; `Chain`, `Stored` (Props/C74): what the expressions see. Assignments inside of other expressions (in parentheses, arguments) stay outside of the grammar | forward: the loop cannot take the result for an assignment, since written expressions have no assignment sign and no parser function adds one (`Parse/ParseEqs`); backward: function by function as in C66. Values: `C04_detached_read` for the scope, places of the object under construction stay open unless a path above was written (`Open`) |
| C75 | `Workspace/Search`: `search.rs` function by function over texts as lists of characters; lower case, alphanumeric and white space are parameters; numbers are natural numbers (no overflow of `u32`); the rows of a table are lists in the order of their hash maps | `Words`, `Rank`, `Found`, `TextFound`, `Shown`, `Has`, `IsHit`, `Before` (Props/C75) say what a search should give; induction over texts and words for the scores, membership in both directions for the hits, the merge sort of core for the order |
| C76 | `Engine/Trace`: `tracer.rs` function by function and the loop of `evaluate` once more with its calls; what switches report is taken from the decisions `next` added, in order; the trace data of handlers is a parameter; durations and the cleaning of values at the end are left out | the events of an evaluation (nodes handled, switches decided) as a list; the state of the tracer is the numbered list of their entries, by induction over the loop on top of the invariants of C29 and C30 (`Engine/TraceLemmas`); nodes the walker can come to have different ids, since only the last node of an id has edges |
| C77 | `Policy/RepeatLint`: `repeated_derivation.rs` and the text functions of `AstOps` function by function; the syntax tree is given by the kinds of its nodes, their spans and what `walk` visits; the expressions of all policies are a list in the order of `collect`; the iteration order of the hash map is any permutation; white space is a parameter | `collect` is related to the list of all occurrences (`Represents`), the sort to the strict order `Earlier`; the exact condition is stated on the result itself: the covered places at a fragment are those of the reported earlier ones (`C77_reported`); `Words` is a separate definition of the words of a text |
| C78 | `Policy/Skeleton.lean`: `compute_unit_entities`, `visible_globals`, `classify_roots`, `input_schema`, `walk_visible_properties`, `wire_property_type`, `wire_object`, `inputs`, `default_for`, `insert`, `input_skeleton`; the validator of C39. Left out: inputs of graphs; goals are any choice of paths | `C78_inputs` says exactly what the inputs are and `C78_entity_type` what their types are, without a bound; `C78_present` and `C78_only` what the skeleton has, from the laws of writing at paths (C04); `C78_valid` that it passes, by induction on the entities that are not visited; `C78_fits` when a default has its type |
| C79 | `Types/TsType.lean`: `convert`, `keyword`, `literal`, `type_literal`, `union`, `intersection`, `reference`, `wrap_optional` on the syntax tree of a TypeScript type. Left out: the TypeScript parser | what a type means for JSON values is defined separately (`Has`); `C79_sound` by recursion on the type, with C08 for unions and a proof that merging is always right for intersections; `C79_exact` for types without unions; `C79_texts` for unions of texts |
| C80 | `Loader/Files.lean`: `key_to_path` (`Path::join` on Unix), `read_content`, `keys` with its list of directories, `Path::extension`, and the way the operating system follows a path through a tree of directories. Left out: symbolic links, entries that fail one by one, parsing the decision | what lies below a directory is a separate relation (`Below`). `C80_listed` (membership, induction on the walk), `C80_once` (the paths on the list are never above one another), `C80_loads`/`C80_found` (a key splits into the names it was glued from), `C80_listed_iff`, `C80_inside`, `C80_alias`; negative: `C80_escape`, `C80_absolute`, `C80_unlisted`, `C80_empty_root` |
| C81 | `Policy/ParseModel.lean`: `validate_identifier`, `DataModelIr::parse`, `DictionaryIr::parse` with their diagnostics. Left out: the texts of messages, the path of the policy and the id of the block | proper names and first ones are defined separately (`Ident`, `FirstNamed`). `C81_identifier`, `C81_dropped`, `C81_kept`, `C81_values`, `C81_repeated`, `C81_kind`, `C81_lost`, `C81_clean`, `C81_stable`, `C81_dictionary` by induction over the properties with the names seen so far; negative: `C81_twice`, the second half of `C81_kind` |
| C82 | `Policy/Document.lean`: `Deserialize` and `Serialize` of `PolicyDocument`, `BlockDoc` and the documents of all blocks, with defaults and skipped fields, `decode_wire`. Left out: lists in place of objects, which error is reported; numbers are integers | `C82_written` (what is written is read), with `Sound` for what documents that were read satisfy, and `C82_read` for documents that were read; `C82_other`, `C82_kind`, `C82_split`, `C82_forms`; negative: `C82_known`, `C82_columns_lost`; `C82_defaults` (what a missing field is read as) |
| C83 | `Analysis/Complete.lean`: `Completions::build`, `build_property`, `build_scope`, `extract_prefix`, `filter`, `find_property_dot`, the choice of the token in front of a dot, the names of parameters, `completions` and `inspect_at`, with byte offsets and a panic for a slice inside of a character. `is_alphanumeric` and `to_lowercase` are parameters (used: a dot and white space are not alphanumeric); tokens with their types are given; the texts `detail` and `info` are left out but for the names of parameters | `C83_prefix`, `C83_prefix_all`, `C83_panics` (exact), `C83_dot` (exact), `C83_target`, `C83_fields`, `C83_methods`, `C83_functions`, `C83_filter`, `C83_signature`; `C83_property` and `C83_word` for the whole; `C83_inspect` for what is shown; `C83_unread`; negative: `C83_space_lost`, `C83_nullable_date`; searching from the end is a split of the text (`last_split`) |
| C84 | `Policy/ParseBlocks.lean`: `ExpressionIr::parse`, `MatchIr::parse`, `AssertionIr::parse`, `DecisionTableIr::parse` with `parse_output_column`, `WriteTarget::validate_path`, `DeclaredType::parse`, `resolve` and `Display`. A diagnostic is severity, code and place; messages are left out | `C84_path` (paths are names joined by dots, an inductive predicate), `C84_expression`, `C84_match`, `C84_assertion`, `C84_column`, `C84_table` (what is kept and when there are diagnostics, exact), `C84_type` (exact), `C84_shown`, `C84_resolve`, `C84_again` (what was kept is read as the same); negative: `C84_shadowed`; loops as `filter` and `map` |
| C85 | `Policy/AnyCheck.lean`: `type_contains_any` with the mutable set of visited cells over a heap of object cells, `record_write_sourced` in the enriched pass, `any_is_consequence`, `report_any`, and the loop over the blocks with the shared poisoned paths. The analysis of a block is any sequence of reads, diagnostics and writes; the scope is left out | `C85_contains` (exactly when an inductively defined part is `any`; cells may contain themselves), `C85_ends` (the bound of the model does not matter), `C85_restores`, `C85_report` (exact), `C85_poisoned`, `C85_told` (some error whenever `any` is written; invariant of the loop); negative: `C85_other_expression` |
| C86 | `Policy/WriteConflicts.lean`: `cross_component_write_conflicts` (the order of the hash map is any permutation) and `component_members`, over the components of C45 | `C86_conflicts` (exact), `C86_sorted`, `C86_imports` (with the components of C45: exactly when two writers are not connected by imports), `C86_members` (exact); negative: `C86_parts` |
| C87 | `Types/SchemaType.lean`: `variable_type_with`, `typed`, `object_type`, `admits_null`, `nullability_divergences`, `inline_enum_paths`, `dictionary_names` of `SchemaType`. The specification `Accepts` is JSON Schema, Draft 7, restricted to the keywords the types are read from, so it accepts what a validator accepts or more; the validator itself (a library) is not modelled | `C87_type` (induction on the schema; what is accepted has the type, `Inh` of C08), `C87_simple` (when its hypothesis holds), `C87_kind`, `C87_date`, `C87_array`, `C87_object`, `C87_enum`, `C87_dictionary` (the type is no wider than what the keywords say), `C87_admits`, `C87_admits_exact`, `C87_path`, `C87_divergences` (exact), `C87_no_false_report`, `C87_inline_enums`, `C87_dictionaries` (exact); negative: `C87_cases`, `C87_ref`, `C87_cases_unread`, `C87_admits_more` |
| C88 | `Heap/JsConvert.lean`: `JsConverter::convert_with_cache`, on cells with addresses, threading the cache; the conversion of values without parts is a parameter. Objects of JavaScript are taken to keep the fields set on them, in order | `C88_graph` (induction; the cache is an injective correspondence that carries every cell over part by part, and the result is what it says), `C88_ends` (finite values are converted); negative: `C88_cycle`, `C88_shared` |

Findings (places where the code violates the property as stated) are collected in the last
section, each with the Lean name of the proved counterexample. Sentences without a name are
observations from reading the code, not proved.

## Findings

* **C03** Merging is not idempotent: a document can change again when the same patch is applied a
  second time (`C03_not_idempotent`).
* **C14** The reference cache serves stale values when the reference expression depends on a local
  (`C14_stale_reference`) or on `$` (`C14_stale_dollar`).
* **C16** Iterating an interval with a fractional lower bound visits a number below it: `[0.5..2]`
  visits 0 (`C16_fractional_bounds_leak`).
* **C24** At the edge of the decimal range two ranges that cover every representable decimal are not
  recognised as total (`C24_decimal_edge`).
* **C28** `$` in an output cell is whatever column was looked at last. The index looks at columns the
  row does not test, so turning tracing on, or removing a row that does not match, changes the result
  (`C28_dollar_leak`, `C28_dollar_leak_rows`).
* **C47** `==` between two arrays or two objects is false, even for equal ones (part of
  `C47_equality`).
* **C29** The walker stops silently after 1000 resets (`ITER_MAX`): a graph with that many switches
  that drop edges returns a truncated result as success; C29 is stated for fewer switches. An output
  node ends the evaluation, so nodes not yet visited are not run.
* **C32** When two calls to the caching loader for one key overlap, both load, and the second to finish
  replaces the content the first one returned (`C32_overlap_replaces`).
* **C33** A dictionary reference inside a value beside another reference is left unresolved, and
  resolving twice differs from resolving once (`C33_not_idempotent`).
* **C05** The in-place and the detached write give different documents when the document holds one
  cell twice (`C05_in_place_differs`). The pointer-equality shortcut makes the result of a merge depend
  on sharing that is not visible in the values (`C05_sharing_visible`). Merging in place panics on a
  double borrow when the patch holds the document (`C05_in_place_panics`). Writing a document into
  itself makes a cycle, on which reading does not end (`C05_cycle`).
* **C30** A switch that matches no statement removes its whole downstream chain, and backward pruning
  also removes ancestors that no longer lead anywhere; the result can be the empty object.
* **C31** The final result merges leaf data in place, so a leaf's recorded output can be altered by the
  merge. With two nodes of one name, `$nodes` depends on evaluation order.
* **C35** The cleaner works in place: it removes `$nodes` from objects the caller still holds (`C35_caller_context_changed`).
* **C48** When a switch prunes the graph, the walker starts over from the input node only. A leaf fed by
  another node without incoming edges has been handled by then, and is missing from the result
  (`C48_second_source`). The final merge starts from a fresh object, but merges nested objects in place, so
  it can write into the caller's context (`C48_caller_context_changed`).
* **C36** When blocks read each other in a cycle, the evaluation ends and each runs once, but one of them runs
  without the value of the other (`C36_cycle_order`); the analysis reports such cycles as errors.
* **C37** Reading a path that nobody writes runs the blocks that write its siblings (`C37_sibling`): after
  a write to `a.b` the prefix `a` counts as written, and serves `a.x`.
* **C49** Expression nodes write in place: an item `x := a` followed by an item with key `x.y` writes into
  the input object `a` (`C49_input_changed`).
* **C39** Required properties are not required: an entity without any of its properties is accepted
  (`C39_missing_accepted`); any string is accepted as a date (`C39_date_unchecked`).
* **C40** Hydration writes into the caller's input, because the store shares everything below the top level
  with it; evaluating the same input again then fails validation (`C40_input_changed`). References inside
  nested entities are not hydrated (`C40_nested_untouched`).
* **C43** With details asked for, a table evaluates rows the index would have skipped, and fails where it
  otherwise gives a result (`C43_details_fail`); the index evaluates columns no reached row tests, and fails
  where a run with details gives a result (`C43_index_fails`). Match arms are found again by id, so with equal
  ids the value of the wrong arm is written (`C43_duplicate_ids`). A cell evaluated later sees what an earlier
  column of the same block has written (`C43_sees_own_write`).
* **C08** `null` does not satisfy a nullable type (`C08_null_not_nullable`), so it does not satisfy its own merge
  with another type (`C08_null_operand`); neither do object types that lack a required field of the other
  (`C08_field_operand`). An array of `any` is merged away (`C08_array_operand`); merging is not associative, so
  the type inferred for an array depends on the order of its elements (`C08_not_assoc`, `C08_infer_nested`);
  `satisfies` is not transitive (`C08_not_trans`).
* **C42** Arms on a required property of an optional object count as exhaustive, although the block falls through
  to null when the object is null (`C42_nullable_parent`); the same through arrays (`C42_array_parent`) and for a
  key that contains a dot (`C42_dotted_key`).
* **C44** Graph answers depend on the history in five ways: on which graph of a circle was asked first
  (`C44_recursion_order_fails`), and the recursion stays reported after an edit that breaks the circle
  (`C44_recursion_stays`); a component that grows by a new importer (`C44_component_grows_unseen`), an import that
  did not exist when it was looked up (`C44_import_appears_unseen`) and a resolver set late
  (`C44_late_resolver_unseen`) are not noticed. Function types learned from an earlier resolver are kept when it is
  replaced, and `function_requests` lists what was asked since it was last read.
* **C19** In a template the token of the brace closing an expression has the span of what precedes it (`C19_brace_span`), a
  backtick inside an expression makes a literal overlapping the tokens already read (`C19_overlap`), a template without closing
  backtick is accepted (`C19_unclosed`), and the first closing brace ends the expression even if it closes an object
  (`C19_nested_brace`). `not in` is one operator only between single blanks: `x not in[1]` is tokenized as `not`, `in`
  (`C19_not_in`). A carriage return is not white space: sources with CRLF line ends are rejected (example in Props/C19).
* **C17** `,`/`or` and `and` have no precedence among tests: `a or b and c` is `(a or b) and c` (`C17_no_precedence`), and
  tests cannot be grouped: `(a or b)` is refused (`C17_parentheses`). In the body of a closure in a cell, `a or b and c`
  is also `(a or b) and c`, though the same text outside cells is `a or (b and c)` (`C17_closure_body`). `not flag` is not
  used as a condition but compared with the reference value (`C17_negated_name`), and `a ?? b` is used as a condition, not
  compared (`C17_coalesce`).
* **C18** No violation. Consequences of the table that may surprise: `-a ^ b` is `(-a) ^ b`, `not a == b` is
  `(not a) == b`, `not a * b` is `not (a * b)` (`C18_prefix`), `a * not b * c` is `a * (not (b * c))`
  (`C18_prefix_inside`). Read but not proved: an assignment is accepted where an operand stands (example in
  Props/C18); with a `..` anywhere in the source, nested brackets are parsed up to three times per level.
* **C66** An interval that excludes what lies between its bounds, `]a..b[`, is accepted with a number before the last bracket but not with a
  name: `b[` is read as an access (`C66_outside_names`, `C66_outside_numbers`).
* **C20** The sum of an array depends on the order of its elements when a partial sum leaves the decimal range
  (`C20_sum_depends_on_order`). The median of an even number of elements is rounded and can lie outside of minimum and
  maximum (`C20_median_outside`). The median of an empty array subtracts one from zero, which crashes a debug build
  (`C20_median_empty_debug`); the sum of an empty array is 0, not an error (`C20_empty`).
* **C21** `mergeDeep` is not associative: an array, a number and an array give different results depending on which pair
  is merged first (`C21_merge_deep_not_associative`).
* **C46** `rand` of a negative number crashes every build (`C46_rand_negative`), and so does `format` of a date with an
  unknown format item (`C46_methods_release`). Builds with overflow checks also crash on an empty template
  (`C46_empty_template`), on the median of an empty array (`C46_functions`), on an excluded interval bound at the limit
  of 64 bits (`C46_begin`) and on too many quarters (`C46_duration_argument`). Read but not modelled: iterating a
  huge interval exhausts memory.
* **C06** A number with more places than a decimal has is rounded, and the strict conversion reports success
  (`C06_rounds`): the document does not come back. An object whose first key is `$serde_json::private::Number` is not read
  as an object by direct deserialization (`C06_token`), while the conversion keeps it.
* **C07** A date or interval comes back from the wire format as a string (`C07_date_becomes_string`). A wire value that
  refers to itself is accepted and read as a cyclic value (`C07_cyclic`). A string entry cannot refer to a later entry
  (`C07_forward_string`); the serializer never writes one.
* **C51** `len` of a string counts bytes (`C51_len`). `contains` never finds an array, object or date in an array
  (`C51_contains_array`). Splitting at the empty string puts empty parts at both ends (`C51_split_empty`).
* **C53** `bool` of a string that is neither `true` nor `false` tells whether it is *empty*: `bool("")` is true,
  `bool("yes")` false (`C53_bool_string`, `C53_bool_inverted`). `isNumeric(true)` is false though `number(true)` is 1
  (`C53_is_numeric`).
* **C54** `isTomorrow` and `isYesterday` take a day to have 24 hours: on the day clocks go back, the present moment is
  both today and tomorrow (`C54_tomorrow_is_today`).
* **C55** The read analysis treats every assignment as made: one in a branch or in an operand that is left out hides a
  read elsewhere (`C55_branch_false`, `C55_shortcut_false`). It visits the start of a slice before the end, evaluation the
  end first (`C55_slice_false`). `$root.x = 1` hides later reads of `$root.x`, which still give the input
  (`C55_root_false`). Parts of `$` are not reported (`C55_dollar_false`), nor reads below 32 closures
  (`C55_depth_false`). In a policy a hidden read means that the block that writes the value need not have run.
* **C57** What a policy computes can depend on the goals and their order: reads below `$root` never ask for the block
  that writes the value (`C57_root`), nor do reads hidden by an assignment in another branch (`C57_hidden_read`); a read
  of an object of which the data model knows a part does not ask for the blocks that write its other parts
  (`C57_model_above`); an object written by two blocks lists its fields in the order in which they ran
  (`C57_field_order`); of blocks that need each other the one asked for first sees the other's value (`C57_cycle`; the
  analysis reports such cycles as a diagnostic, the run does not refuse them). Writing `a.b` where `a` holds a number,
  string or array writes nothing and reports nothing (the condition `Walkable` of C58).
* **C59** Conditions have no precedence (`C59_no_precedence`); what follows a group is joined with the operator of the
  last condition inside it (`C59_operator_after_group`); a condition that cannot matter any more can still fail the
  assertion (`C59_not_lazy`).
* **C60** Accepted expressions whose value does not have the inferred type: `1 / 0` and `1 % 0` are null, not numbers
  (`C60_division`, `C60_remainder`); `true and x`, `false or x`, `+x` return `x` as it is (`C60_and_of_any`,
  `C60_or_of_any`, `C60_plus_of_any`); the merge of object types promises the fields of both (`C60_merged_objects`,
  `C60_coalesced_objects`), that of `any[]` and `T[]` is `T[]` (`C60_merged_arrays`, `C60_merged_elements`); `filter` over
  an interval is typed an interval (`C60_filter_interval`), `flatMap` flattens neither intervals nor null
  (`C60_flatMap_interval`, `C60_flatMap_null`), nor does `flatten` (`C60_flatten_interval`); in a literal the first of
  two equal keys wins, in its type the last (`C60_duplicate_keys`), and an entry with a computed key is neither checked
  (`C60_computed_key_unchecked`) nor typed (`C60_computed_key`); `$root.x` after `x = …` is still the input
  (`C60_root_after_assignment`); `a.b = 1` alone has a field `a.b` in its type (`C60_dotted_assignment`); `values` of an
  object with more fields than declared (`C60_values`); `merge([])` and `mergeDeep([])` are `{}` (`C60_merge_empty`,
  `C60_mergeDeep_empty`); of overloads the first is taken for an argument of unknown type (`C60_keys_of_any`,
  `C60_min_of_any`); getters of an invalid date are null (`C60_getter_invalid`); without strict checking an array index
  is never null (`C60_index_not_strict`). Optional arguments are not checked: `round(1, "s")` is accepted and always
  fails (`C60_optional_argument`). For data of unknown type every identifier is typed null (`C60_unknown_data`).
* **C61** "Always false" is remarked on `d == s` for a date and a string, though dates may be given as text; for `s == d`
  there is no remark (`C61_date_first`, `C61_date_second`). It is remarked on `x in xs` where both may be null
  (`C61_null_in`) or the type of `x` is nullable twice (`C61_two_nulls`). Comparing two optional constants is an error,
  though both may be null (`C61_null_constant`).
* **C62** The checker accepts, and the evaluation fails with "Unsupported type": a division by zero inside another operator
  (`C62_division`), dates given as text compared by order (`C62_dates`), an object looked for in a list, which fails whatever
  the list (`C62_object_in`), intervals of strings or of a number and a date (`C62_string_interval`, `C62_mixed_interval`),
  closures over an interval of dates (`C62_date_interval`). The value under a computed key is not checked at all
  (`C62_computed_key`).
* **C63** The linter calls a row unreachable although it supplies the output columns the earlier row leaves empty
  (`C63_unreachable`; removing it changes the result). It says of a column that it never changes the outcome although it does:
  when some row of a group has no condition in the column the order of the rows is not looked at (`C63_never_changes`), and rows
  that overlap without one subsuming the other are ignored (`C63_overlap`).
* **C64** The linter reports the parentheses in `(a ?? not b) ?? c` although without them `not` takes `b ?? c`
  (`C64_not`; the expression can get a value where it failed), and those in `x = 1; ($root).x`, where the path
  `$root.x` is read from the context before the assignment (`C64_assigned`).
* **C67** A block that writes the entity itself into one of its properties (`order.copy := order`) leaves an object that contains
  itself, so that the result cannot be shown (`C67_entity_in_itself`); the owner under another name closes a circle over the list.
  The owner itself written under the owner's name is taken for the one put in and lost (`C67_owner_not_kept`); a write below
  the owner's name changes the owner, and the last instance wins. The writes for list elements that are no objects are lost
  without an error (`C67_not_an_object`). An object that is listed twice has two turns.
* **C68** The graph counts what is below a computed path as an input of its own: a request for `k := r.m` where `r` is computed as
  a whole is rejected with the missing input `r.m` (`C68_field_of_computed`), and so is one that reads `$root.a` (`C68_root`) or a
  key with a dot in it (`C68_dotted_key`). What reads one part of a computed object is said to need all parts of it, so inputs
  are demanded that no run looks at (`C68_siblings`), as are those of arms not taken (`C68_other_arm`). When a part of an object is
  computed from another part through a third path (`quote.base`, `fee`, `quote.total`) the graph has a cycle though no block
  depends on itself; a request without goals then computes nothing and does not fail (`C68_false_cycle`). Without goals a part of
  an object is left out when another part is read (`C68_part_left_out`). The parts of a partly computed object that come from the
  input are not listed (`C68_part_given`).
* **C69** Renaming changes what an expression means in some cases. Where the elements of something other than a path are named like the
  global, `map([u] as x, x)`, the occurrences are renamed and the name is not (`C69_unresolved`). A new name that is already in use as the
  name of elements captures (`C69_captured`); nothing checks that the new name is free. The left side of an assignment `x.a = u` inside of an
  expression is not renamed, what is read of it is (`C69_assigned`). `$root.x` is not renamed (`C69_root`), nor is the key of a write below a
  global (`C69_key_below`). In the JSON of a block every string that is equal to the text of a site is changed, whatever it means:
  renaming the global `date` in the data model that declares it with the type `date` changes the type (`C69_type`), and a property with
  the name of its entity is renamed with it (`C69_property`).
* **C70** The conditional schema says of inputs that they are needed for one arm only although a run with another value needs them: when
  something else needs them too (`C70_needed_elsewhere`), when the arm without a condition needs them (`C70_default_arm`), and when an arm
  reads a field of something computed (`C70_field_of_computed`). An input that a condition is computed from can be listed as needed under that
  condition (`C70_circular_guard`). An input behind two conditions is listed with one *or* the other (`C70_or_for_and`).
* **C71** A block on an entity that something refers to runs once per instance and sees it under the name of the entity, yet what it takes from that
  name is reported as a list of all instances (`C71_own_instance`). Computed properties of such an entity are never followed (`C71_referred`).
  A dot in a name between brackets is read as two names (`C71_dotted_name`). An assignment in a condition changes the property, and the source
  is reported all the same (`C71_assigned`).
* **C72** A field of what is computed ends the tree as if it were an input, so the tree leaves out what decides the result
  (`C72_field_of_computed`). Of an object that several blocks write parts of, one block is followed (`C72_one_writer`). What other columns of a table
  read is left out, though a request for the column is refused without it (`C72_other_column`). A name is marked as unresolved for all who read it
  if it is so for the first (`C72_mark`).
* **C74** In the second and further assignments of a list any token is taken for a name, so `a = 1; 5 = 2` and `a = 1; + = 2` are accepted
  (`C74_any_token`). After `a = 1; a.b = 2` the object has only `a: 1`, while expressions see `a` as `{b: 2}` (`C74_lost`). `(a = 1)` is
  rejected: the loop wants a semicolon or the end of all tokens.
* **C75** Scattered letters are looked for from the first place of the first letter only: `abc` is not found in `a.........ab.c`
* **C77** White space is dropped within strings and between words as well: `x == 'a b'`, `x == 'ab'` and `x == ' ab'` are reported as one derivation repeated three times (`C77_strings`). The number of policies in the message is that of all occurrences, also of those that are not reported: three places in one policy are "derived 3 times across 2 policies" (`C77_policies`).
  (`C75_missed`). A word that stands 400 or more characters into a text, within another word, scores less than scattered letters
  (`C75_scattered_first`). Two cells of a row that score the same are ordered by the iteration order of a hash map, since the column
  is not part of the order (search.rs:203-211): which of them is within the limit is not determined (`C75_cells`).
* **C78** The skeleton that is offered for the input of a policy is itself rejected as an input if an entity that is referred to has no property `id` (`C78_without_id`), and if goals are given that need a reference but not the pool it is looked up in (`C78_goals`). An entity that a property leads to, be it one of its own (an employee with a manager), is not among the inputs, and anything in its place is accepted (`C78_led_to`).
* **C79** `keyof T` is converted like `T`, so that none of its values, the names of the properties, has the type (`C79_keyof`). The rest of a tuple is taken for one element, so that `[...string[]]` becomes a list of lists (`C79_rest`). A union of object types is converted like their intersection: `{ a: string } | { b: number }` demands both properties (`C79_union`).
* **C80** A key is joined to the root of the file loader without a check: an absolute key ignores the root and a key with `..` leaves it, so that a decision node can name any JSON file of the machine (`C80_absolute`, `C80_escape`; `C80_inside` says that these are the only ways out). The empty root loads from the current directory and lists nothing (`C80_empty_root`); files with another spelling of the extension, or named `.json`, load and are not listed (`C80_unlisted`); one file has many keys (`C80_alias`), each of which a cache keeps separately.
* **C81** A repeated property is reported at the one that is kept, not at the one that is lost (`C81_twice`, ir.rs:342-352 takes the id of the first). An enumeration whose values are all blank becomes a text without a diagnostic, so that every text passes (`C81_kind`).
* **C82** A block of a known kind is read from `type`, `id` and `props.data` alone, so that writing a document loses all other fields of these blocks, while blocks of other kinds keep theirs (`C82_known`, `C82_other`). `columns` of a table that are not a list are removed without an error: the table is read without columns (`C82_columns_lost`, decision_table.rs:61 removes before it looks at the type).
* **C83** Asking for completions panics when the last character before the cursor that is not of a word takes several bytes, for example behind a dash or a euro sign in a string: completion.rs:183 adds 1 to the offset of the character where its length is due (`C83_panics`). With white space between a dot and the word being typed the scope is offered in place of properties (`C83_space_lost`). For a date that may be missing no method is offered, while fields of an object that may be missing are (`C83_nullable_date`); for numbers and texts all methods of dates are offered (`C83_methods`), though they fail when run. The names shown for `set` are `value, unit`, while the definition takes the unit first (completion.rs:458, date_method.rs:107).
* **C84** A dictionary may be called `string`, `number`, `boolean` or `date`, but as the type of an output column this name always means the type (`C84_shadowed`, decision_table.rs:138-143). A path may hold brackets and quotes: only white space and empty parts are refused (`C84_path`), and `a[].b` only in tables (`C84_column`).
* **C85** Whether an `any` is explained by an earlier one is decided from all reads of the block so far, not from those of the expression: a block that has read a poisoned path in one expression writes an unrelated `any` in another without a report (`C85_other_expression`, context.rs:226-230). Some error always exists then (`C85_told`).
* **C86** Only equal paths count as conflicts: a policy that writes `x` and one of another component that writes `x.y` are not reported (`C86_parts`, components.rs:28-31).
* **C87** `anyOf` and `oneOf` of object schemas give a type with the required fields of all cases: with cases `{a}` and `{b}`, the value `{b: 1}` is accepted but does not have the type (`C87_cases`, schema.rs:29-39). Beside `$ref`, Draft 7 ignores other keywords, but the type is read from them (`C87_ref`). `admits_null` looks only at the first of `anyOf`, `enum` and `type`, so a divergence may be missed (`C87_admits_more`), as are those within cases (`C87_cases_unread`); none is reported wrongly (`C87_no_false_report`).
* **C88** Lists and objects that the engine shares are shared in JavaScript too, so a script that changes `input.a` changes `input.b` when both are one cell (`C88_shared`, serde.rs:173-176). A cell enters the cache only when its parts are done, so the cache does not end the conversion of a value that contains itself (`C88_cycle`).
* **C65** A match block in place of a chained conditional goes on to the next arm where a condition is not a boolean and the
  conditional failed (`C65_not_boolean`), and does not see what a condition assigned (`C65_assigned`). The path named by the
  hint can be two different places, `a["b.c"]` and `a.b.c` (`C65_two_places`).
* **C22** Months and years of a duration string are not summed: in `1 month 2 months` the second group replaces the
  first, a quarter group and a month group replace each other, and so do year groups (`C22_months_replaced`,
  `C22_months_iff`, `C22_years_iff`); seconds are summed. White space inside a number is skipped: `1 2d` is twelve
  days. `n * 3` for quarters is unchecked: `715827883q` panics with overflow checks and is negative without
  (`C22_panic`, cases). The offset of "number expected" is the one after the last unit, not that of the character.
* **C23** The start of the quarter of 31 May and the end of the quarter of 31 May, 31 July and 31 August are invalid
  dates, because the month is set before the day (`C23_quarter_fails`); such a date is not even in the same quarter as
  itself (`C23_not_same_quarter_as_itself`). Adding years to 29 February gives an invalid date where adding months takes
  the 28th (`C23_add_years_leap`). Adding any duration fails when the resulting local time occurs twice, in the hour
  after the clock goes back (`C23_add_seconds_iff`, cases). Without a unit, a date can be both the same as and before
  another (`C23_no_unit`, cases). The deprecated `endOf` of a year sets the day to the length of the current month: 28
  December in February (`C23_naive_end_of_year_wrong`). Read but not modelled: the offset written in an RFC 3339
  string is dropped, its local time is taken in the configured zone (mod.rs:224-226).
* **C38** A template is trimmed first, and blank text renders as null (`C38_blank`). Text without `{{` that contains
  `}}` is rejected (`C38_no_open`). An expression that is never closed is accepted and evaluated (`C38_unclosed`);
  `{{}}` is dropped (`C38_empty`). The template lexer does not know string literals (`C38_literal`) or objects: an
  expression ending in `}` loses its brace (`C38_object_brace`). Strings inside arrays and objects are printed
  without escapes, so different values render alike (`C38_ambiguous`).
