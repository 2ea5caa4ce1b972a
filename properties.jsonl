{"id": "C01", "title": "Objects behave as finite maps at every size", "statement": "An object value built by any sequence of inserts, removals, entry-insertions and bulk constructions answers get / contains / len exactly like a mathematical finite map, and reports the previous value on insert/remove correctly, no matter whether the sequence crosses the size at which the object switches from its small inline representation to a hash table; the object never lists one key twice.", "quantifier": "every sequence of operations on every starting object, every key and value, any number of entries", "why_tests_cant": "the representation switches at a size threshold and never switches back; histories that straddle it in every order are unbounded", "anchors": ["core/types/src/variable/map.rs: VariableMap::{insert,remove,remove_str,get_str,get_full,entry,spill,from_iter,with_capacity,len}"]}
{"id": "C02", "title": "Object equality ignores insertion order and representation", "statement": "Two objects compare equal exactly when they hold the same keys with equal values, independently of the order in which keys were inserted and of which internal representation each object has.", "quantifier": "all pairs of object values reachable by operations", "why_tests_cant": "the equality must be representation independent for all mixed pairs and all histories", "anchors": ["core/types/src/variable/map.rs: PartialEq for VariableMap", "core/types/src/variable/mod.rs: PartialEq for Variable"]}
{"id": "C03", "title": "Merge follows merge-patch semantics", "statement": "Merging a patch into a document: keys absent from an object patch keep their document value; a key with null in the patch is absent from the result; a key with a scalar or array in the patch has exactly that value; a key with object on both sides is merged recursively; a top-level array patch replaces the document; any other top-level non-object patch leaves the document unchanged. Merging the same patch twice gives the same result as merging it once.", "quantifier": "all document/patch pairs of any depth and size", "why_tests_cant": "recursive law over unbounded nested data, including the mixed-kind cases", "anchors": ["core/types/src/variable/mod.rs: Variable::{merge,merge_clone}, merge_variables"]}
{"id": "C04", "title": "Path read after path write", "statement": "After a successful path write of value v at dotted path p, reading p yields v; reading any path that is not a prefix or extension of p yields what it yielded before; an in-place path write fails exactly when some occupied intermediate segment holds a non-object, while a detached write replaces such segments and fails only when the value itself is not an object. Removing a path makes it read as absent and leaves other paths untouched.", "quantifier": "all values, all dotted paths, all written values", "why_tests_cant": "depends on arbitrary path overlap relations over unbounded depth", "anchors": ["core/types/src/variable/mod.rs: Variable::{dot,dot_insert,dot_insert_detached,dot_remove}"]}
{"id": "C05", "title": "Detached operations never mutate shared data", "statement": "Values share structure by reference. A detached path write and a cloning merge never change what any other holder of the original value can observe, while returning the same result the in-place operation would have produced.", "quantifier": "all heaps of shared (aliased, acyclic) values, all paths and patches", "why_tests_cant": "aliasing patterns are unbounded; a test fixes one sharing shape", "anchors": ["core/types/src/variable/mod.rs: dot_insert_detached, dot_head_detach, merge_clone, depth_clone, shallow_clone, deep_clone"]}
{"id": "C06", "title": "JSON conversion round trip", "statement": "Strictly converting JSON to a runtime value and back yields the same JSON document (numbers compared by numeric value) whenever the conversion succeeds, and it fails exactly when some number in the document is outside the decimal range. The lossy conversion agrees with the strict one whenever the strict one succeeds.", "quantifier": "all JSON documents", "why_tests_cant": "unbounded nested documents and all numbers", "anchors": ["core/types/src/variable/conv.rs: Variable::try_from_value, From<Value> for Variable, From<Variable> for Value"]}
{"id": "C07", "title": "Reference-compressed serialization round trip", "statement": "Serializing a value in the reference-compressed wire format and deserializing it yields an equal value, including strings that look like references (starting with '@'), shared sub-objects, repeated strings and keys; every reference id emitted is in range.", "quantifier": "all values and all sharing patterns", "why_tests_cant": "the escape and id scheme must hold for every string and every sharing graph", "anchors": ["core/types/src/variable/ref_ser.rs: RefSerializer::{count_refs,assign_ref_ids,serialize_with_refs,escape_at_string}", "core/types/src/variable/ref_deser.rs: RefDeserializer::{deserialize,deserialize_value,deserialize_key,unescape_at_string,parse_ref_id}"]}
{"id": "C08", "title": "Type merging and satisfaction laws", "statement": "Every type satisfies itself and `any`; nothing but null-admitting types accept null; the merge of two types used for inferring a common type is commutative up to equivalence for scalar types, and both operands satisfy the merged type.", "quantifier": "all pairs of variable types of any depth", "why_tests_cant": "recursive law over unbounded type trees", "anchors": ["core/types/src/variable_type/util.rs: satisfies, merge, widen"]}
{"id": "C09", "title": "Compiled evaluation agrees with the language semantics", "statement": "Compiling a syntax tree and running the bytecode produces exactly the value (or failure) that the compositional meaning of the expression gives, and always terminates with exactly one result; jumps, loop scopes, and short circuits never corrupt the stack.", "quantifier": "all syntax trees the compiler accepts, all environments, any nesting of loops, conditionals and member accesses", "why_tests_cant": "jump offsets and stack discipline must be right for every nesting of constructs", "anchors": ["core/expression/src/compiler/compiler.rs: CompilerInner::{compile_node,emit_loop,emit_cond,replace,calc_backward_jump,compile_member_fast}", "core/expression/src/vm/vm.rs: VMInner::run"]}
{"id": "C10", "title": "A reused evaluator has no memory", "statement": "Evaluating an expression on an evaluator object that has evaluated any earlier sequence of expressions (including ones that failed midway) gives the same result as on a fresh evaluator.", "quantifier": "all histories of previous evaluations, all expressions and environments", "why_tests_cant": "leftover stack or loop state depends on the whole history", "anchors": ["core/expression/src/vm/vm.rs: VM::run", "core/expression/src/isolate.rs: Isolate::{run_standard,run_unary}"]}
{"id": "C11", "title": "Short-circuit evaluation", "statement": "`a and b` is false whenever a is false, `a or b` is true whenever a is true, `a ?? b` is a whenever a is not null, and a conditional only evaluates the selected branch: in each case the other operand is not evaluated, so its failure cannot surface.", "quantifier": "all operand expressions including ones that fail, all environments", "why_tests_cant": "must hold for every unevaluated operand", "anchors": ["core/expression/src/compiler/compiler.rs: Node::Binary/Node::Conditional arms", "core/expression/src/vm/vm.rs: Opcode::Jump"]}
{"id": "C12", "title": "Quantifiers and collection closures mean what they say", "statement": "all / some / none / one / filter / map / flatMap / count over an array or integer interval compute for-all / exists / not-exists / exactly-one / sublist of satisfying elements in order / element-wise image in order / concatenated image / number of satisfying elements, for every predicate expression, including nested closures; `#` refers to the innermost element.", "quantifier": "all arrays of any length, all predicate expressions, any nesting depth", "why_tests_cant": "loop compiled to jumps; must hold for every length and nesting", "anchors": ["core/expression/src/compiler/compiler.rs: closure function arms, emit_loop, emit_cond", "core/expression/src/vm/vm.rs: Begin, End, Jump, IncrementCount, GetCount, GetLen, Pointer"]}
{"id": "C13", "title": "Name resolution: closure aliases and locals", "statement": "An identifier that names an enclosing closure alias denotes the current element of the innermost closure with that alias, at every nesting depth; otherwise it denotes a local if one was assigned, otherwise the input's property, otherwise null.", "quantifier": "all nestings of closures with any (possibly shadowing) aliases", "why_tests_cant": "depth arithmetic must be right for every nesting", "anchors": ["core/expression/src/compiler/compiler.rs: lookup_alias, Node::Identifier", "core/expression/src/vm/vm.rs: Opcode::Pointer, FetchEnv, FetchFast", "core/expression/src/scope.rs: Scope::{get_str,local,materialize}"]}
{"id": "C14", "title": "Isolate caching is transparent", "statement": "Running an expression through an isolate gives the same result whether its compiled form or reference value was cached by an earlier call or computed afresh; changing the environment discards references computed under the previous one.", "quantifier": "all sequences of set-environment / set-reference / run operations on one isolate sharing one compile cache", "why_tests_cant": "caches depend on the whole history", "anchors": ["core/expression/src/isolate.rs: Isolate::{set_environment,set_reference,run_standard,run_unary}", "core/expression/src/scope.rs"]}
{"id": "C15", "title": "Interval membership", "statement": "For an interval with bounds lo <= hi and any of the bracket combinations, a number (date) is `in` the interval exactly when it satisfies the two bound comparisons given by the brackets, outward brackets denoting the complement-style outside interval; `not in` is the negation.", "quantifier": "all bounds and tested values, all bracket combinations", "why_tests_cant": "all rationals/dates and brackets", "anchors": ["core/expression/src/vm/interval.rs: VmInterval::includes", "core/expression/src/vm/vm.rs: Opcode::In"]}
{"id": "C16", "title": "Interval iteration enumerates exactly the integers inside", "statement": "Iterating an inward-bracketed integer-bounded interval visits, in ascending order and once each, exactly the integers that are members of the interval.", "quantifier": "all integer bounds and inward bracket combinations", "why_tests_cant": "all bounds", "anchors": ["core/expression/src/vm/interval.rs: VmInterval::{to_array,includes}"]}
{"id": "C17", "title": "Unary test meaning", "statement": "A unary (table cell) test applied to reference value r: a leading comparison compares r; a literal / array / interval compares by equality or membership; `,` and `or` mean disjunction, `and` conjunction; a boolean-valued expression is used as a condition.", "quantifier": "all unary tests of any length, all reference values", "why_tests_cant": "all combinations of test forms", "anchors": ["core/expression/src/parser/unary.rs: root_expression, expression_pair, UnaryNodeBehaviour"]}
{"id": "C18", "title": "Operator precedence and associativity", "statement": "Parsing the token sequence of an expression printed with minimal parentheses yields back the same tree: precedence order and left/right associativity of the documented operators hold for every expression.", "quantifier": "all expression trees over the operator table, any size", "why_tests_cant": "all trees", "anchors": ["core/expression/src/parser/standard.rs: binary_expression, unary_expression", "core/expression/src/parser/constants.rs"]}
{"id": "C19", "title": "Tokenization is faithful", "statement": "Every successfully tokenized source decomposes into tokens whose spans are in order, non-overlapping and whose text is the source text at the span, with only white space between them; numbers, identifiers, operators and strings are maximal.", "quantifier": "all source strings", "why_tests_cant": "all strings", "anchors": ["core/expression/src/lexer/lexer.rs", "core/expression/src/lexer/cursor.rs", "core/expression/src/lexer/codes.rs"]}
{"id": "C20", "title": "Aggregates over number arrays", "statement": "min / max return an element bounding all others, sum / avg / median / mode do not depend on the order of the elements, median lies between min and max, mode returns a most frequent element; empty arrays are rejected with an error rather than crashing the process.", "quantifier": "all arrays of numbers of any length", "why_tests_cant": "all permutations and lengths", "anchors": ["core/expression/src/functions/internal.rs: imp::{min,max,sum,avg,median,mode}"]}
{"id": "C21", "title": "merge / mergeDeep / flatten / keys / values built-ins", "statement": "merge of objects is right-biased key-wise union skipping nulls; merge of arrays is concatenation; mergeDeep recurses into objects and concatenates arrays, and is associative; flatten removes exactly one level; keys and values line up positionally and describe the object.", "quantifier": "all argument lists of any length and depth", "why_tests_cant": "unbounded nesting", "anchors": ["core/expression/src/functions/internal.rs: imp::{merge,merge_deep,deep_merge_variables,flatten,keys,values}"]}
{"id": "C22", "title": "Duration strings", "statement": "Parsing a duration string made of number-unit groups in any order gives the duration whose seconds, months and years are the sums of the groups of each kind.", "quantifier": "all sequences of number/unit groups", "why_tests_cant": "all group sequences", "anchors": ["core/expression/src/vm/date/duration_parser.rs: DurationParser::{parse,parse_unit}", "core/expression/src/vm/date/duration_unit.rs", "core/expression/src/vm/date/duration.rs"]}
{"id": "C23", "title": "Calendar helpers", "statement": "start-of and end-of a unit bracket the instant they are applied to, are idempotent, land in the same unit, and succeed for every valid date; month difference between dates is antisymmetric and consistent with adding months.", "quantifier": "all valid civil dates and all units", "why_tests_cant": "leap years and month lengths make the domain effectively unbounded", "anchors": ["core/expression/src/vm/date/mod.rs: VmDate::{start_of,end_of,diff,set,add,sub}, month_diff", "core/expression/src/vm/helpers.rs"]}
{"id": "C24", "title": "Numeric range coverage is decided exactly", "statement": "The analysis that declares a set of numeric range tests exhaustive says yes exactly when every number satisfies at least one of them.", "quantifier": "all finite collections of (open, closed, unbounded) numeric segments", "why_tests_cant": "all real-valued bounds and all segment collections", "anchors": ["core/expression/src/intellisense/discriminant.rs: NumberCover::{is_total,merged_with,intersect}, Bound::{lo_rank,hi_rank,connects,wider_hi}"]}
{"id": "C25", "title": "Recognised tests mean what the analysis says", "statement": "Whenever the analysis recognises a test on `path` as an enumeration, boolean or numeric-range test, the test evaluates to true on a value exactly when the value belongs to the recognised set; unrecognised tests are never indexed.", "quantifier": "all test expressions and all values of the tested path", "why_tests_cant": "all trees of tests", "anchors": ["core/expression/src/intellisense/discriminant.rs: ArmTest::{from_node,binary,equality,in_set,numeric,and,or}", "core/expression/src/intellisense/mod.rs: cell_test, arm_test"]}
{"id": "C26", "title": "First-hit decision tables", "statement": "A first-hit table returns the output of the first row all of whose non-empty cells hold (and whose outputs evaluate), and null if there is none.", "quantifier": "all tables (any number of rows and columns) in which column expressions, condition cells and output cells do not mention `$`, all inputs, with and without compiled index and trace", "why_tests_cant": "unbounded rows; must hold with and without the row index", "anchors": ["core/engine/src/nodes/decision_table/mod.rs: handle_first_hit, handle_first_hit_collect, evaluate_row, row_matches, cell_passes", "core/engine/src/nodes/decision_table/index.rs"]}
{"id": "C27", "title": "Collect decision tables", "statement": "A collect table returns, in row order, the outputs of exactly the matching rows. In a first-hit table, a collect column (`path[]`) gathers its values from the first row that fires and all later matching rows.", "quantifier": "all tables in which column expressions, condition cells and output cells do not mention `$`, all inputs, with and without compiled index and trace", "why_tests_cant": "unbounded rows", "anchors": ["core/engine/src/nodes/decision_table/mod.rs: handle_collect"]}
{"id": "C28", "title": "The row index never changes results", "statement": "Pruning rows through the column index yields exactly the rows a full scan would match: turning tracing on or off, or adding rows so that the index switches on, does not change a table's result.", "quantifier": "all tables, all inputs, index on and off", "why_tests_cant": "index soundness must hold for all cells and reference values", "anchors": ["core/engine/src/nodes/decision_table/index.rs: TableIndex::build, ColumnIndex::{build,rows_for}, decides", "core/engine/src/nodes/decision_table/mod.rs: candidate_rows, row_matches"]}
{"id": "C29", "title": "Graph execution order", "statement": "During graph evaluation every node is handled at most once per pass, only after all of its remaining incoming neighbours have been handled, and every node reachable through live edges is handled.", "quantifier": "all acyclic decision graphs of any size, all switch outcomes", "why_tests_cant": "all graph shapes and all prunings", "anchors": ["core/engine/src/decision_graph/walker.rs: GraphWalker::{next,initialize_input_nodes,reset,remove_edge_recursive,merge_node_data}", "core/engine/src/decision_graph/graph.rs: evaluate"]}
{"id": "C30", "title": "Switch nodes activate exactly the chosen branches", "statement": "A first-hit switch keeps exactly the edges of its first satisfied statement; a collect switch keeps exactly the edges of all satisfied statements; nodes reachable only through dropped edges are not evaluated, and nodes still reachable through a live edge are.", "quantifier": "all graphs, all statement outcomes", "why_tests_cant": "all graph shapes", "anchors": ["core/engine/src/decision_graph/walker.rs: next (switch arm), switch_statement_evaluate, remove_edge_recursive"]}
{"id": "C31", "title": "Graph validation", "statement": "A graph is accepted exactly when it has one input node and no cycle; evaluation of an accepted graph terminates; nested decisions are cut off with a depth-limit error instead of recursing forever.", "quantifier": "all decision contents, all nesting of decisions including self-reference", "why_tests_cant": "all graphs, recursion", "anchors": ["core/engine/src/decision_graph/graph.rs: validate, evaluate", "core/engine/src/nodes/decision/mod.rs", "core/engine/src/decision_graph/walker.rs: ITER_MAX"]}
{"id": "C32", "title": "Loaders return what was stored", "statement": "The in-memory loader returns the most recently added content for a key and not-found after removal; the caching loader returns what the inner loader returned on first successful load, does not cache failures, and never mixes keys.", "quantifier": "all operation histories and keys", "why_tests_cant": "history dependent", "anchors": ["core/engine/src/loader/memory.rs", "core/engine/src/loader/cached.rs"]}
{"id": "C33", "title": "Dictionary inlining in schemas", "statement": "Resolving dictionary references in a JSON schema replaces every reference to a known dictionary and leaves everything else unchanged; it terminates, and is idempotent when dictionaries contain no references.", "quantifier": "all schemas of any depth and all dictionaries", "why_tests_cant": "recursive structure", "anchors": ["core/engine/src/decision_graph/schema_dict.rs"]}
{"id": "C34", "title": "Node input/output transformation", "statement": "With no transform settings a node's output equals the handler's result; an input field selects the handler's input; loop mode calls the handler once per element in order and returns results in order; output path nests the result at that path; pass-through merges the result over the original input.", "quantifier": "all transform settings, inputs and handlers", "why_tests_cant": "all handlers and inputs", "anchors": ["core/engine/src/nodes/transform_attributes.rs"]}
{"id": "C35", "title": "Internal bookkeeping never leaks", "statement": "The cleaned result of an evaluation contains no `$nodes` key at any depth and is otherwise unchanged.", "quantifier": "all values of any depth", "why_tests_cant": "recursive", "anchors": ["core/engine/src/decision_graph/cleaner.rs"]}
{"id": "C36", "title": "Goal-driven policy execution", "statement": "Evaluating a policy for a set of goals runs each block at most once, runs the writers of everything a block reads before that block, runs every block needed for the goals and no block unneeded, and terminates even when reads are cyclic.", "quantifier": "all block sets, read/write relations, goals and selections", "why_tests_cant": "all dependency graphs", "anchors": ["core/engine/src/policy/evaluator.rs: Driver::{demand,writers_of_longest_prefix,run_block,run_block_inner,run_singleton}"]}
{"id": "C37", "title": "Goal and path prefix resolution", "statement": "A read of a dotted path is served by the writer of the longest written prefix of the path (or by writers of its extensions), and path extension is the segment-wise prefix order: `a.bc` never extends `a.b`.", "quantifier": "all paths and writer sets", "why_tests_cant": "string prefix vs segment prefix for all strings", "anchors": ["core/engine/src/policy/evaluator.rs: writers_of_longest_prefix", "core/engine/src/policy/queries/dependency.rs: PathPrefix::extends, collect_demand_writers"]}
{"id": "C38", "title": "Template rendering", "statement": "Rendering text without `{{` returns the text; a template that is a single `{{expr}}` returns the value itself; mixed templates concatenate in order; the segmentation into text and expressions is lossless; `}}` without an opening and `{{` inside an expression are rejected.", "quantifier": "all template strings and all expression evaluators", "why_tests_cant": "all strings", "anchors": ["core/template/src/lexer.rs", "core/template/src/parser.rs", "core/template/src/interpreter.rs", "core/template/src/lib.rs"]}
{"id": "C39", "title": "Policy input validation", "statement": "A validated input conforms to the declared data model at every depth up to the recursion bound: each present, non-null property has its declared kind, enumerations hold declared values, and validation terminates on any data model including recursive ones.", "quantifier": "all data models and inputs", "why_tests_cant": "recursive models and unbounded inputs", "anchors": ["core/engine/src/policy/validator.rs: InputSchema::{validate,validate_entity,validate_kind,validate_enum,validate_reference}"]}
{"id": "C40", "title": "Reference hydration", "statement": "Replacing reference ids by the entities in the input's reference pools substitutes exactly the entity with that id (the last one when ids repeat), leaves non-references unchanged, and unknown ids are left as they are.", "quantifier": "all pools, all inputs", "why_tests_cant": "all inputs", "anchors": ["core/engine/src/policy/refs.rs: RefPoolIndex::from_input", "core/engine/src/policy/evaluator.rs: hydrate_references"]}
{"id": "C41", "title": "Policy import closure", "statement": "The set of policies assembled for an evaluation is exactly the set reachable from the root through imports, each exactly once, for any import graph including cyclic ones.", "quantifier": "all import graphs", "why_tests_cant": "cycles, diamonds, unbounded graphs", "anchors": ["core/engine/src/policy/runtime.rs: collect_transitive_policies"]}
{"id": "C42", "title": "Exhaustive matches always select", "statement": "When the analysis reports a match block (or table column) as exhaustive, then for every well-typed non-null value of the discriminant at least one arm's test holds, so the block never falls through to null.", "quantifier": "all arm lists and all well-typed discriminant values", "why_tests_cant": "all arm lists and values", "anchors": ["core/engine/src/policy/blocks/match_block.rs: discriminant_covered, select", "core/engine/src/policy/blocks/decision_table.rs: cells_cover, column_covered"]}
{"id": "C43", "title": "Policy match and table blocks: tracing neutral first match", "statement": "A match block writes the value of its first arm whose condition holds, null if none; a policy table writes per scalar column the first non-empty cell among the matching rows and per collect column all of them in order; asking for trace details does not change what is written.", "quantifier": "all blocks, inputs, trace flags", "why_tests_cant": "all arm/row lists and flags", "anchors": ["core/engine/src/policy/blocks/match_block.rs: select, commit", "core/engine/src/policy/blocks/decision_table.rs: select, commit"]}
{"id": "C44", "title": "Workspace results depend only on current documents", "statement": "After any sequence of document additions, edits and removals, analysis results returned by the workspace equal those a fresh workspace holding the same documents would return.", "quantifier": "all edit histories interleaved with queries", "why_tests_cant": "cache validity depends on the entire history", "anchors": ["core/engine/src/workspace/db.rs: PolicyDerivedCache, set_document, remove_document, cached_graph_analysis, snapshot"]}
{"id": "C45", "title": "Policy components partition the workspace", "statement": "Policies are grouped into components by the (undirected) import relation: every policy is in exactly one component and two policies share a component exactly when connected by imports.", "quantifier": "all import graphs", "why_tests_cant": "all graphs", "anchors": ["core/engine/src/workspace/db.rs: compute_components"]}
{"id": "C46", "title": "Built-ins are total", "statement": "Every built-in operator and function either returns a value or an error; none crashes the process, whatever the argument values.", "quantifier": "all argument values", "why_tests_cant": "corner values such as empty arrays", "anchors": ["core/expression/src/functions/internal.rs", "core/expression/src/vm/vm.rs: Opcode::Join, Opcode::Slice, Opcode::Fetch"]}
{"id": "C47", "title": "Operators compute what they denote", "statement": "Arithmetic, comparison, equality, membership, concatenation, indexing and literals compute the documented value of their operands, in operand order: e.g. `a - b` subtracts b from a, `a == b` holds exactly for equal scalars of the same kind, `x in array` holds exactly when an element equals x, division by zero gives null, an array literal lists its elements in order and an object literal maps each key to the value first written for it.", "quantifier": "all operand expressions and operand values", "why_tests_cant": "all values of all kinds", "anchors": ["core/expression/src/vm/vm.rs: VMInner::run arithmetic, comparison, In, Fetch, Slice, Array, Object opcodes"]}
{"id": "C48", "title": "The result of a graph is the merge of its leaves", "statement": "The result of a graph evaluation is obtained from the empty object by merging, in the order of the nodes in the document, the outputs of the handled nodes that have no outgoing edge; outputs of nodes in branches not taken do not enter. When an output node ends the evaluation its output enters the result.", "quantifier": "all documents, contexts, handlers", "why_tests_cant": "resets of the walker and pruning make many paths to the same end", "anchors": ["core/engine/src/decision_graph/walker.rs: ending_variables", "core/engine/src/decision_graph/graph.rs: DecisionGraph::evaluate"]}
{"id": "C49", "title": "Expression nodes evaluate their items in order", "statement": "An expression node evaluates its items in the order of the document, skipping those with an empty key or value; item number i sees the input as environment and the results of the earlier items under `$`; the output holds exactly the evaluated values at their keys, a later item replacing an earlier one of the same key; the first failing item makes the node fail and later items are not evaluated.", "quantifier": "all lists of items, all inputs, all expression semantics", "why_tests_cant": "all item lists and interactions through `$`", "anchors": ["core/engine/src/nodes/expression/mod.rs: ExpressionNodeHandler::handle_content"]}
{"id": "C50", "title": "Input and output nodes validate without altering", "statement": "An input or output node without schema returns its input; with a schema it returns its input unchanged when the validator accepts it and fails, with the error of the validator, when it does not. A value the schema of the input node rejects reaches no other node.", "quantifier": "all schemas, validators and values", "why_tests_cant": "all values", "anchors": ["core/engine/src/nodes/input/mod.rs", "core/engine/src/nodes/output/mod.rs"]}
{"id": "C51", "title": "String functions compute what they are named after", "statement": "startsWith, endsWith and contains tell whether one string is a prefix, suffix or part of another; split cuts a string at the first, leftmost, non-overlapping occurrences of the separator, and joining the parts with the separator gives the string back; trim removes exactly the white space at both ends; contains on an array finds equal scalars; len counts array elements and string bytes; a regular expression that does not compile is an error; other kinds of arguments are errors.", "quantifier": "all strings, arrays and separators", "why_tests_cant": "overlapping and empty separators, all texts", "anchors": ["core/expression/src/functions/internal.rs: starts_with, ends_with, contains, split, trim, len, matches, extract"]}
{"id": "C52", "title": "Rounding", "statement": "round gives the nearest number with the requested number of decimal places, halves away from zero; trunc cuts digits off; floor and ceil give the next integers; abs the distance from zero. Numbers with few enough places are unchanged, order is kept, and the result of rounding a decimal is a decimal, without overflow. The number of places must lie in [0, 2^32).", "quantifier": "all numbers and numbers of places", "why_tests_cant": "all numbers, ties and extreme magnitudes", "anchors": ["core/expression/src/functions/internal.rs: abs, ceil, floor, round, trunc"]}
{"id": "C53", "title": "Conversions", "statement": "type names the kind of a value; bool, string and number leave values of their kind alone and otherwise give a value of that kind or an error, as documented for every kind; isNumeric tells for which numbers and strings number succeeds; reading a printed number gives it back.", "quantifier": "all values", "why_tests_cant": "all strings", "anchors": ["core/expression/src/functions/internal.rs: to_type, to_bool, to_string, to_number, is_numeric"]}
{"id": "C54", "title": "Parts of dates", "statement": "The getters of a date give the year, month, day, hour, minute and second of its time in its zone, the weekday from Monday = 1, the day of the year from 1, the ISO 8601 week and the quarter; the deprecated functions give the same parts; an invalid date has none; isYesterday, isToday, isTomorrow tell the calendar day relative to now.", "quantifier": "all dates and zones", "why_tests_cant": "week numbering at the turn of the year, leap years, clock changes", "anchors": ["core/expression/src/functions/date_method.rs: getter", "core/expression/src/functions/deprecated.rs"]}
{"id": "C55", "title": "The reads reported for an expression are enough", "statement": "Two environments that agree at every path reported by the read analysis of an expression (as a policy records it), and on `$`, give the same result, value or failure. This holds for expressions that assign nothing in branches, short-circuited operands or slice bounds, assign nothing below `$root`, and nest fewer than 32 closures; without any one of these conditions it fails.", "quantifier": "all expressions in the class, all environments, all built-in functions", "why_tests_cant": "a missing read shows only when the value of something unreported matters", "anchors": ["core/expression/src/intellisense/dependency.rs", "core/engine/src/policy/blocks/property_read.rs", "core/expression/src/intellisense/mod.rs: reads"]}
{"id": "C56", "title": "The dictionaries of a graph come from the nearest import", "statement": "After any history of edits and questions, the dictionary names a graph can use are exactly those defined by policies reached over its imports, directly or through further imports; when several define a name, the one used is that of a policy the fewest imports away. Circular and missing imports change nothing of this.", "quantifier": "all histories, all documents, all import lists", "why_tests_cant": "import graphs of any shape, with circles and duplicate names, and stale caches", "anchors": ["core/engine/src/workspace/graph/queries.rs: graph_dictionary_blocks, graph_dictionary_types"]}
{"id": "C57", "title": "The values of a policy do not depend on the goals or their order", "statement": "For a policy whose blocks write disjoint paths, whose reads are complete, not hidden and without cycles, two runs on the same input that both succeed give the same value at every goal they share, whatever else is asked for and in whatever order; asking for less never turns success into failure; asking for the same goals in another order succeeds or fails alike; what no block writes is left as in the input.", "quantifier": "all policies in the class (expressions, match blocks, tables, assertions), all inputs, all lists of goals", "why_tests_cant": "all orders of demand and all subsets of goals, with blocks run in the middle of another block", "anchors": ["core/engine/src/policy/evaluator.rs", "core/engine/src/policy/blocks", "core/engine/src/workspace/db.rs: writers, reads"]}
{"id": "C58", "title": "The result of a policy solves its blocks", "statement": "After a successful run, every block that was asked for holds as an equation in the result: its expression, the first arm that applies, the rows of its table or its conditions, evaluated with the final values, give what is found at the path the block writes.", "quantifier": "all policies in the class of C57, all inputs and goals", "why_tests_cant": "a block reads values in the middle of the run, the result shows them at its end", "anchors": ["core/engine/src/policy/evaluator.rs", "core/engine/src/policy/blocks/expression.rs", "core/engine/src/policy/blocks/match.rs", "core/engine/src/policy/blocks/decision_table.rs", "core/engine/src/policy/blocks/assertion.rs"]}
{"id": "C59", "title": "The meaning of the conditions of an assertion", "statement": "The depths of the conditions describe nested groups; an assertion gives what these groups give when joined from left to right without precedence, each with the operator of the last condition before it; all conditions are evaluated and the first that fails is the error; no conditions give false.", "quantifier": "all lists of conditions with any depths and operators", "why_tests_cant": "groups nest to any depth and open and close several levels at once", "anchors": ["core/engine/src/policy/blocks/assertion.rs"]}
{"id": "C60", "title": "An accepted expression gives a value of its inferred type", "statement": "If the strict type checker records no error for an expression over data of an object type, and the data has that type, then every value the compiled expression gives has the type the checker inferred. This holds for expressions without the forms for which it is false: division and remainder (null for zero), `and`, `or` and unary plus over operands of unknown type, conditionals, arrays and `??` that merge objects with different fields or an array of unknown with another array, `filter` and `flatMap` over intervals or nullable arrays, object literals with computed or repeated keys, assignments below the top, `$root` after an assignment, dotted targets in a result, `merge`, `mergeDeep` and `values` of typed objects, overloaded functions on arguments of unknown type, `flatten` of intervals, and getters and `diff` of dates. Each of these has a counterexample.", "quantifier": "all object types, all data of that type, all expressions outside the listed forms", "why_tests_cant": "the claim ranges over all types and all data of these types, and the checker and the virtual machine treat each operator in separate code", "anchors": ["core/expression/src/intellisense/type_provider.rs", "core/expression/src/functions/defs.rs", "core/expression/src/functions/internal.rs", "core/expression/src/functions/date_method.rs", "core/types/src/variable_type/util.rs", "core/expression/src/vm/vm.rs"]}
{"id": "C61", "title": "The type checker's remarks on comparisons are right", "statement": "Where the checker remarks that `==`, `!=`, `in` or `not in` always gives the same answer, the compiled comparison gives that answer for all data of the declared type; where it remarks that the left side of `??` is always or never null, it is; and where it reports that a constant is never equal to the other operand, it is not. Exceptions, each with a counterexample: a date on the left compared with text or a number, null looked for among elements that may be null, types that are nullable twice, and null on both sides of a comparison of constants.", "quantifier": "all types, all values of these types, all accepted comparisons without assignments", "why_tests_cant": "the remarks follow from a relation between types, their truth from the equality of values in the virtual machine", "anchors": ["core/expression/src/intellisense/type_provider.rs", "core/types/src/variable_type/util.rs", "core/expression/src/vm/vm.rs"]}
{"id": "C62", "title": "An accepted expression does not fail on the types of its operands", "statement": "If the strict type checker records no error for an expression over data of an object type, and the data has that type, then a failure of the compiled expression is not about the type of an operand: it is a function or method failing by itself, a number out of range, an index that does not exist, an interval with curly brackets, or a crash. This holds for expressions that use no value of unknown type where a type is needed, and without: division and remainder as operands of an operator, comparisons of dates by order, lists, objects and dates on the left of `in`, intervals whose ends are not both numbers, closures over intervals, values under computed keys, and assignments below the top. Each of these has a counterexample or is excluded as in C60.", "quantifier": "all object types, all data of that type, all expressions outside the listed forms", "why_tests_cant": "the absence of a class of failures over all data of a type cannot be shown by running cases", "anchors": ["core/expression/src/intellisense/type_provider.rs", "core/types/src/variable_type/util.rs", "core/expression/src/vm/vm.rs"]}
{"id": "C63", "title": "What the linter says about table rows and columns is right", "statement": "For a policy table without collecting outputs: a row flagged as redundant holds only where the earlier row named in the message holds. A row flagged as a duplicate, or as unreachable where the earlier row fills every output column the row fills, can be removed: rows are still chosen wherever they were, and whatever the trace flags and the index, the table leads to the same error or the same context. The same holds for a column flagged as having no conditions. A column flagged as never changing the outcome can be removed and its rows merged without changing the value of any output column, wherever rows with different outputs exclude one another by the remaining columns. Without the provisos the last two messages are wrong.", "quantifier": "all policy tables whose cells are not made of spaces only and in which `$` is used in unary tests only, all environments, contexts, trace flags, with and without the row index", "why_tests_cant": "equivalence of two tables over all inputs cannot be sampled; the wrong messages need particular combinations of empty cells and row order", "anchors": ["core/engine/src/policy/linter/table_hygiene.rs", "core/engine/src/policy/blocks/decision_table.rs"]}
{"id": "C64", "title": "Parentheses the linter calls unnecessary can be dropped", "statement": "If parentheses of an expression are reported as unnecessary, the tokens without this pair are parsed to the same tree without them, everything else grouping as before, unless they hold an operand of a product, a power or `??` in which a `not` reaches to the end. The tree without any parentheses has the same value in every scope of names when there are no assignments. Following the hints one after the other ends, with the value of the first expression. The exception and assignments really make a difference.", "quantifier": "all written expressions without assignments (token sequences of any length), all reported pairs at any depth, all scopes with an object or null as context, all built-in functions", "why_tests_cant": "the precedence tables, the site rules and the lenient reading of paths interact; the failing combinations (`not` under `??`, `$root` after assignments) are not among the shapes one would try", "anchors": ["core/engine/src/policy/linter/redundant_parentheses.rs", "core/expression/src/parser/parser.rs", "core/expression/src/parser/constants.rs", "core/expression/src/compiler/compiler.rs"]}
{"id": "C65", "title": "A chained conditional the linter wants written as a match block is one", "statement": "The hint is given for exactly the expressions that are chains of at least two conditions, parentheses around a link not mattering, and it counts them. It names a path exactly when this is the only path every condition mentions. A match block with an arm for every condition and a last one without a condition writes the same value in the same context wherever the expression gives a value; where the conditions are booleans, which the type checker can tell, it fails where the expression fails and with the same cause; it reads the same paths. A condition that is no boolean or assigns a name makes a difference, and the path named can stand for two places.", "quantifier": "all expressions without assignments, all contexts whose environment has no key twice, all built-in functions, all front ends that read the arms as the links of the chain, all trace flags", "why_tests_cant": "the two blocks are run by different code (bytecode jumps against the arm loop in two phases); equivalence over all conditions, values and failures cannot be sampled", "anchors": ["core/engine/src/policy/linter/prefer_match.rs", "core/engine/src/policy/linter/mod.rs", "core/engine/src/policy/blocks/match_block.rs", "core/engine/src/policy/blocks/expression.rs", "core/engine/src/policy/evaluator.rs"]}
{"id": "C66", "title": "The parser accepts exactly the written expressions", "statement": "A sequence of tokens is accepted by the expression parser exactly when the grammar of expressions derives it, and the tree returned is the one it derives: no token is skipped, invented or read in another place. The same holds for table cells and, through the lexer, for source texts.", "quantifier": "all sequences of tokens (all source texts) without assignment sign and range operator, all trees; with them, all trees without assignments, intervals with inverted brackets and, beside a range, empty arrays and objects", "why_tests_cant": "both directions range over all token sequences; a test can only try some accepted and some rejected ones", "anchors": ["core/expression/src/parser/parser.rs", "core/expression/src/parser/standard.rs", "core/expression/src/parser/unary.rs: root_expression, expression_pair"]}
{"id": "C67", "title": "A block on an entity is run for each instance and changes only that instance", "statement": "A policy block on properties of an entity is run once for every instance in the list. During the turn of an instance the entity's name stands for it, with the data it had before the block, and has the owner under the owner's name; the other names are those of the store. Afterwards each instance has exactly the writes of its own turn, the owner is not left in it, and every value that does not contain an instance is what it was. When an instance has no property of the owner's name the block works on a copy, and writing the copy back has the same effect on all shared values as writing the instance. The choices of match blocks and tables are made before, each where the entity stands for its instance, and change nothing. Writing the entity into itself, the owner, or into elements that are no objects is excluded, with what happens then.", "quantifier": "all stores with any sharing, all lists of instances (any length), all owners, all sequences of steps that allocate and write properties of the entity; for writes below properties: instances that share nothing and values made by the step", "why_tests_cant": "the instances, the store, the scope and the copy share cells; a test sees one pattern of sharing and a few instances, the claim is about all of them and about everything that is not touched", "anchors": ["core/engine/src/policy/evaluator.rs: PhaseScope, InstanceSlot, run_iterated", "core/engine/src/policy/blocks/context.rs: write", "core/types/src/variable/mod.rs: dot_insert, depth_clone"]}
{"id": "C68", "title": "What a policy needs for some goals is all that a run for them looks at", "statement": "The graph of a policy's paths says for some goals what they need, which inputs have to be there, and, when no goals are given, what is computed. The search finds exactly the paths from which edges lead to the goals. Every block that the goals may depend on writes something the search finds, and everything it reads, whatever it chooses, is found. So two inputs that are the same at the found paths and where the policy writes give the same: both runs fail, or both succeed with the same values for the goals; for inputs that have nothing where the policy computes, being the same at the listed inputs is enough. A request is rejected exactly with the listed inputs that are neither optional nor there; when it is run, what a needed block reads from the input is optional or there, and an input with a value at every listed path is never rejected. Without goals exactly the written paths that lead nowhere are asked for, and if no path leads to itself everything written leads to one of them.", "quantifier": "all policies of expression, match, assertion and table blocks whose blocks write places of their own and report what they read, all lists of goals, all inputs, all expressions", "why_tests_cant": "a test of the listed inputs tries some inputs and sees no difference; the claim is that no other part of any input can make one, through any chain of blocks and any choice of arms and rows", "anchors": ["core/engine/src/policy/queries/dependency.rs: compute_graph, reachable_from, reachable_input_paths, terminal_sinks, is_optional", "core/engine/src/policy/evaluator.rs: evaluate, validate_request, compute_order_to_run, input_path_satisfied"]}
{"id": "C69", "title": "Renaming a global or an entity keeps the meaning of the expressions and changes nothing else in the texts", "statement": "Renaming walks the references that the analysis finds. Where the analysis knows every binding of the name, exactly the occurrences that no `as` binds are renamed; if besides the new name is not used, no side of an assignment has one of the names and `$root` is not used, the renamed expression has on the renamed data the value or the error of the expression. In the text exactly the spans found are replaced, in whatever order and however often they are found and whatever characters the text has; spans that overlap are replaced at most once. In a block every string that is one of the texts is replaced by its new text, every other string and the shape of the block stay; in graph nodes the protected names are left alone. Keys of writes are renamed where the key is the global or begins with the entity and a dot. The cases where this fails are shown.", "quantifier": "all expressions, all names, all data, all built-in functions, all texts (any characters), all lists of spans, all blocks", "why_tests_cant": "a rename has to be right at every nesting of closures, aliases and local assignments at once and must not touch anything else; a test sees a few expressions", "anchors": ["core/engine/src/workspace/editor.rs: walk_renamable, walk_segment_targets, write_key_span, RenameRewrites", "core/engine/src/workspace/types/diagnostic.rs: SpanOps", "core/expression/src/intellisense/dependency.rs: resolve, resolve_member_chain"]}
{"id": "C70", "title": "The conditional schema divides the inputs, and what it lists for an arm matters only when the arm is taken", "statement": "The conditional schema is divided by a property exactly if one match block of the policy discriminates by a property that the policy does not compute and that is an enumeration or a boolean. It then lists, for every value, what the goals need beside the conditional arms, what all of these need, the property and what the conditions read; and for each conditional arm, with its value if it has one, what that arm needs besides. Otherwise it lists what is needed beside all conditional arms or read by a condition, and what else these arms need together with exactly the conditions of the arms that need it, each once, in order. No input of the schema is lost. If nothing but the values of the conditional arms uses what is listed for them, two inputs that are the same at the inputs listed for every value and at those of the arm that the value of the property selects (or under a condition of an arm that the run takes) give the same result. The cases where that fails are shown.", "quantifier": "all policies without entities, all goals, all data models, all scopes, all inputs, all built-in functions", "why_tests_cant": "that an input does not matter is a statement about all pairs of inputs, and about every shape of a policy around the match block", "anchors": ["core/engine/src/policy/queries/conditional.rs: conditional_schema, clean_discriminant, build_union, build_flat, group_for", "core/engine/src/policy/queries/schema.rs: inputs, outputs, goal_reachable_input_paths"]}
{"id": "C71", "title": "A computed property that is reported as holding instances of an entity holds instances of that entity", "statement": "An expression has a source exactly if it is a dotted path, or built over one with parentheses, a constant index, a slice, a filter, or a choice whose branches have the same source; without assignments its value is then the property at that path, some of its items in their order, or one of them or null. A match block has a source exactly if its non-empty arms, at least one, all have it. Whatever the order in which the paths are visited, with memory and cut cycles, the paths reported are exactly those found by following sources, data models, globals and computed properties, each with one entity. Where the data is as modelled and what is written has its source, and so in every result of a policy run for these paths, a reported path holds null, an instance of the entity, or for an array a list of such. The cases where the code's report fails are shown.", "quantifier": "all expressions, all scopes and values, all built-in functions, all data models and sources, all visiting orders, all policies that are sound in the sense of C58", "why_tests_cant": "the report is made from the text alone, so it has to be right for every value, every visiting order of a hash table and every shape of chain or cycle", "anchors": ["core/expression/src/intellisense/entity_flow.rs: FlowSource::from_node", "core/engine/src/policy/queries/scope.rs: resolve_instance_targets, resolve_instance, resolve_source_path, declared_hop", "core/engine/src/policy/blocks/match_block.rs: arm_instance_source"]}
{"id": "C72", "title": "The tree of what a property is derived from has everything it is derived from and nothing else", "statement": "The tree built for a property always ends. A property with a writer is followed by the paths read in the expressions of its writer that feed it, each with its own tree, unless it is above itself; anything else has nothing below it; what is remembered between branches makes no difference except to marks. The names in the tree are exactly the property, what it is derived from, and so on. They are all found by the search of the dependency graph, and where blocks write one path each and what is read has all that is written in the same object, the unwritten names of the tree are exactly the inputs the graph lists, so two inputs that agree there give the same result. The cases where the tree leaves out what a result depends on are shown.", "quantifier": "all policies, all properties, all cyclic dependencies, all inputs", "why_tests_cant": "the memory is shared between branches and interacts with cut cycles, so a wrong subtree shows only for particular shapes of graphs", "anchors": ["core/engine/src/policy/queries/dependencies.rs: dependencies, build_dep_node", "core/engine/src/policy/blocks/mod.rs: write_dependency_expr_ids", "core/engine/src/policy/blocks/context.rs: finish"]}
{"id": "C73", "title": "The number of arguments a function or date method is said to take is what its implementation uses, and a date method does what it is called", "statement": "For every function, deprecated function and date method: with fewer arguments than the minimum every call is an error, the minimum can be enough, what comes after the maximum makes no difference, and no smaller maximum has that property; so both numbers are determined by the implementation. Names are distinct, a name finds its function and no other. startOf and endOf give the first and last moment of the named unit in the zone of the date, the comparisons say whether a date is in, after or before the unit, add and sub move by the named amount and undo each other, the difference in months after adding months is what was added, set replaces one field, and every method of an invalid date gives an invalid date, null or false.", "quantifier": "all functions and methods, all argument lists, all dates and zones, all library behaviours", "why_tests_cant": "arities are declared by hand beside the implementation, and zones with changes, lengths of months and units interact", "anchors": ["core/expression/src/functions/date_method.rs: DateMethod, From<&DateMethod> for Rc<dyn FunctionDefinition>", "core/expression/src/functions/internal.rs", "core/expression/src/functions/deprecated.rs", "core/expression/src/functions/registry.rs", "core/expression/src/vm/date/mod.rs: VmDate"]}
{"id": "C74", "title": "Lists of assignments are read as they are written and give what they assign", "statement": "Tokens are parsed to a list of assignments of usual expressions exactly when they are one: a path of names, an assignment sign and an expression, further ones each after a semicolon, and optionally a last semicolon or a result. The tree has the paths and expressions in their order. Over an object each expression sees the values assigned before it at their paths and everything else as it was; the whole is the value of the result, or without one an object with exactly the assigned values at their paths, provided that no path goes on below one assigned before. It fails only with an error of one of its expressions or of the result, and over anything but an object always.", "quantifier": "all token sequences, all lists of assignments, all scopes, all library behaviours", "why_tests_cant": "the assignment loop reads a key before it knows whether it is one and goes back; the scope and the object under construction are two different structures written by two different functions", "anchors": ["core/expression/src/parser/parser.rs: assigned_object, transform_key, identifier, with_postfix", "core/expression/src/vm/vm.rs: AssignedObjectStep", "core/expression/src/variable/mod.rs: dot_insert, dot_insert_detached"]}
{"id": "C75", "title": "A search gives the texts in which every word of the query is found, the best first", "statement": "A text is found exactly when the query has a word and every word of it is found in the text, in any case of letters: it stands there, or its letters occur one after the other close together. The score depends on where the words stand and not on their order; more words find no more texts; every text in which all words stand is found. The place of a hit is in the text, and what is shown of a long text is a part of it with the place found. The hits of a document are exactly those for its texts (names, expressions, cells, prose, code), each with the place it has in the document; the search gives the best of them in order, as many as asked for or as there are, and none left out ranks before one given, whatever the order of the documents.", "quantifier": "all queries, all documents, all limits, all behaviours of the Unicode functions", "why_tests_cant": "matching, scoring, clipping and ranking interact; positions are computed in clipped texts; hash maps give their entries in any order", "anchors": ["core/engine/src/workspace/search.rs", "core/engine/src/workspace/types/search.rs"]}
{"id": "C76", "title": "The trace of a graph shows what was evaluated, in order, and changes nothing", "statement": "Tracing does not change the outcome of an evaluation, and without it there is no trace. With it, the trace has exactly one entry for each node handled and each switch that decided: under its id, with its name, the input it was given, the output it returned (left out for the input and the output node) and the trace data of its handler; for a switch the statements chosen. This holds even if the document gives one id to several nodes: of those only one is ever evaluated. The entries are numbered from 0 without gaps or repetitions; the numbers follow the order of evaluation, and a node has a larger number than every node it got its input from. If a node fails, the trace that comes with the error ends with that node and the input it failed on, and everything else in it was evaluated before.", "quantifier": "all documents, all contexts, all behaviours of the node handlers, conditions and built-ins", "why_tests_cant": "switches reset the walk and are traced from within it; ids may be used twice; the order of entries depends on the walk", "anchors": ["core/engine/src/decision_graph/tracer.rs", "core/engine/src/decision_graph/graph.rs:164", "core/engine/src/decision_graph/walker.rs:191"]}
{"id": "C77", "title": "Repeated derivations are reported exactly where they are, outermost first", "statement": "The lint looks at every operation of every standard expression outside of decision tables whose text has at least 6 characters besides white space. Operations with the same text apart from white space are one derivation. It is reported exactly if at least 3 of its occurrences (2 if it has 3 or more operations) are not within occurrences reported for earlier derivations, where those with more operations come first, then longer ones, then by characters. The hints are at exactly these occurrences, as far as they are in the policy looked at, with their number. The result does not depend on the order of hash maps. As long as equal texts have equally many operations, no reported operation is below another reported one. What is shown are the words of the expression with single spaces, cut to 60 characters.", "quantifier": "all expressions with all syntax trees and spans, all iteration orders of hash maps, all notions of white space", "why_tests_cant": "what is reported depends on all other fragments of all policies through the covered places; hash maps are iterated in random order", "anchors": ["core/engine/src/policy/linter/repeated_derivation.rs", "core/engine/src/policy/linter/mod.rs:92"]}
{"id": "C78", "title": "The skeleton of an input passes the validation of inputs", "statement": "The inputs of a policy are exactly: the properties of the entities that no relationship or reference leads to, the globals, and for each entity that is referred to the list of such entities. The skeleton has, at the path of each input, the default of the type of the input, and nothing else. If names are in order, there are at most 30 entities, and what is referred to has an id that is a text, the skeleton passes the validation that inputs of the policy have to pass; the defaults have the types of the inputs if no enumeration is empty.", "quantifier": "all data models, all dictionaries, all choices of goals", "why_tests_cant": "the schema of the validator and the skeleton are computed by different functions from all data models of all policies; they have to agree for every nesting of entities, references and globals", "anchors": ["core/engine/src/policy/queries/skeleton.rs", "core/engine/src/policy/queries/schema.rs:142", "core/engine/src/policy/ir.rs:176", "core/engine/src/policy/validator.rs:12"]}
{"id": "C79", "title": "A value of the type written for a function has the type it is converted to", "statement": "The types of function nodes are written in TypeScript and converted to the types of the checker. A JSON value of the written type has the converted type, for all types without keyof and rest elements whose unions and tuples are of types that can be merged; intersections may be of any types. For keywords, texts, arrays and objects with named properties, in any nesting, the values are exactly the same.", "quantifier": "all type expressions, all values", "why_tests_cant": "the conversion recurses over arbitrary nested types, and whether a value fits is a statement about infinitely many values", "anchors": ["core/engine/src/workspace/graph/ts_type.rs:55", "core/engine/src/workspace/graph/mod.rs:30"]}
{"id": "C80", "title": "The file loader lists exactly the decisions below its root and a listed key loads its file", "statement": "The keys of the loader are those of the files below its root, at any depth, with the extension json, a Unicode path and only directories on the way that can be listed; no key is listed twice; loading a listed key reads the very file it was listed for. When all directories can be listed, a key without empty parts, . and .. is listed exactly when it leads to a file with the extension. A relative key without .. stays below the root.", "quantifier": "all directory trees, all roots, all keys", "why_tests_cant": "trees have any depth and width, and the walk keeps a list of directories whose order depends on the system", "anchors": ["core/engine/src/loader/filesystem.rs:34", "core/engine/src/loader/filesystem.rs:72"]}
{"id": "C81", "title": "A data model keeps the first property of every proper name and nothing is lost silently but blanks", "statement": "Parsing a data model keeps, in order, exactly the first property of every name that is not empty, does not start with a digit and has no dot, bracket or white space; an enumeration keeps the first of every value that is not blank. For every property that is lost there is a diagnostic, and there are none exactly when all names are proper and different and no enumeration repeats a value. Parsing the document of a model that was kept gives the model again. Dictionaries alike.", "quantifier": "all documents of data models and dictionaries", "why_tests_cant": "the claims are about all combinations of names, white space and repetitions", "anchors": ["core/engine/src/policy/ir.rs:263", "core/engine/src/policy/ir.rs:284", "core/engine/src/policy/ir.rs:437"]}
{"id": "C82", "title": "A policy document that is read, written and read again is the same", "statement": "Reading the JSON that is written for a policy document that was read gives the same document, whatever the kinds and contents of its blocks. A block of a kind that is not known is written exactly as it was read. The columns of a table are split into inputs and outputs in their order, and a table with both columns and inputs or outputs is refused.", "quantifier": "all JSON values, all documents", "why_tests_cant": "documents are unbounded trees of optional fields with defaults; the tests write two blocks", "anchors": ["core/engine/src/policy/raw.rs:57", "core/engine/src/policy/raw.rs:94", "core/engine/src/policy/raw.rs:115", "core/engine/src/policy/blocks/decision_table.rs:52"]}
{"id": "C83", "title": "Completions are those of the type in front of the dot, or of the scope, that start with the word at the cursor", "statement": "Behind a dot and the start of a name the editor is offered the fields of the type in front of the dot that start with it, without regard to case and in order; elsewhere the names of the scope, functions and closures. The type in front of the dot is that of the token that ends last before it, of these the longest. At a position the shortest token there is shown with its type and text. Asking for completions does not panic unless the last character before the cursor that is not of a word takes several bytes.", "quantifier": "all texts, positions, types and lists of tokens", "why_tests_cant": "the claims are about all texts with all byte offsets; the tests use ASCII texts", "anchors": ["core/expression/src/intellisense/completion.rs:36", "core/expression/src/intellisense/completion.rs:180", "core/expression/src/intellisense/completion.rs:201", "core/expression/src/intellisense/inspection.rs:13"]}
{"id": "C84", "title": "Blocks keep what is proper, in order, and nothing is lost without a diagnostic", "statement": "The target of an expression, a match, an assertion or an output column is kept, without white space around it, exactly when it is names joined by dots; else it is empty and there is a diagnostic. A match keeps all its arms, an assertion exactly the conditions with a text that are nested less than 32 deep, a table all its columns and rules, all in order, and every condition that is lost has a diagnostic. There is no diagnostic exactly when target, values, conditions and types are proper. The type of a column is read exactly from the name of a type or dictionary with or without [], and a type that is shown is read as itself. What was kept is kept when it is read again.", "quantifier": "all documents of blocks", "why_tests_cant": "the claims are about all combinations of white space, dots, brackets and depths", "anchors": ["core/engine/src/policy/blocks/mod.rs:59", "core/engine/src/policy/blocks/expression.rs:37", "core/engine/src/policy/blocks/match_block.rs:61", "core/engine/src/policy/blocks/assertion.rs:78", "core/engine/src/policy/blocks/decision_table.rs:129", "core/engine/src/policy/blocks/decision_table.rs:228"]}
{"id": "C85", "title": "The search for any in a type ends and is exact, and no any goes through in silence", "statement": "A type contains any exactly when some part of it, through lists, nullable types and fields of objects, is any, also where objects contain themselves; the search ends and leaves the set of visited objects as it was. In the enriched analysis a write of such a type adds exactly one error unless an earlier error of the expression, or a read related to a path already written with any, explains it; and whenever some block writes a type with any in it, the analysis gives an error.", "quantifier": "all types over shared, possibly cyclic objects, all sequences of blocks with reads, diagnostics and writes", "why_tests_cant": "the claims are about all shapes of cyclic object types and all orders of reads, errors and writes", "anchors": ["core/engine/src/policy/blocks/type_check.rs:28", "core/engine/src/policy/blocks/type_check.rs:33", "core/engine/src/policy/blocks/context.rs:184", "core/engine/src/policy/blocks/context.rs:210"]}
{"id": "C86", "title": "A path is a write conflict exactly when unconnected policies write it", "statement": "A path is listed as a conflict exactly when rules of two different components write it, together with exactly the policies that write it, in order and each once; the paths are in order and each is listed once, however the map is walked. With the components of the workspace this means that two policies write it that no chain of imports connects. The members of the component of a policy are exactly the policies connected to it, in order and each once.", "quantifier": "all workspaces, rules with writes and orders of the hash map", "why_tests_cant": "the claims are about all graphs of imports, all rules and all orders of hash maps", "anchors": ["core/engine/src/policy/queries/components.rs:9", "core/engine/src/policy/queries/components.rs:17"]}
{"id": "C87", "title": "What a JSON schema accepts has the type that graphs read from it, and reports about schemas are exact", "statement": "Every value that a JSON schema accepts has the type that the analysis of graphs reads from the schema, for all schemas without $ref in which the types of anyOf, oneOf and lists of types can be merged. A path is reported as one where the type has null but the validator refuses it exactly when it leads, through items and properties, to a property that is not required and is not seen to admit null; a schema that accepts null is always seen to admit it, so no report is false. The dictionaries of a schema are exactly those named by an object anywhere in it.", "quantifier": "all schemas and values", "why_tests_cant": "the claims are about all nestings of keywords and all values", "anchors": ["core/engine/src/workspace/graph/schema.rs:14", "core/engine/src/workspace/graph/schema.rs:66", "core/engine/src/workspace/graph/schema.rs:105", "core/engine/src/workspace/graph/schema.rs:170", "core/engine/src/workspace/graph/schema.rs:189"]}
{"id": "C88", "title": "What is handed to JavaScript is the same graph of lists and objects", "statement": "When a value is converted for a function node, there is a correspondence between the lists and objects of the engine and those of JavaScript that relates the value and the result, carries every list and object over part by part and in order, and takes no two to the same: two places share a list or object in JavaScript exactly when they share it in the engine. Every finite value is converted.", "quantifier": "all heaps of finite values, all values in them", "why_tests_cant": "the claim is about all ways of sharing lists and objects", "anchors": ["core/engine/src/nodes/function/v2/serde.rs:148", "core/engine/src/nodes/function/v2/serde.rs:165"]}
