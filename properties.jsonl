{"id": "C01", "title": "Evidence lookup finds the innermost handler", "statement": "After any sequence of evidence creations and extensions, looking an ability up in any evidence value that was produced returns the marker most recently installed for that ability on the chain of extensions that produced that value; every older evidence value keeps answering exactly as before it was extended.", "quantifier": "every finite history of empty/extend calls, every evidence handle in it, every i32 ability id installed on the chain", "why_tests_cant": "Histories are unbounded and the correctness of binary search depends on a sortedness invariant that every extension must preserve; a test fixes one history.", "anchors": ["crates/tribute-runtime/src/lib.rs: Evidence::lookup, Evidence::extend, __tribute_evidence_empty/lookup/extend"]}
{"id": "C02", "title": "Standard output receives exactly the program's bytes", "statement": "Whatever sequence of results the operating system returns from write (short writes, interruptions, errors, zero), the bytes accepted by the OS are always a prefix of the bytes the program asked to print; if the writer reports success the OS accepted all of them exactly once and in order, and no byte is ever offered twice after being accepted.", "quantifier": "every byte string, every (possibly infinite) schedule of write results", "why_tests_cant": "The OS may split and interrupt a write arbitrarily; the set of schedules is infinite.", "anchors": ["crates/tribute-runtime/src/lib.rs: write_all_with, write_stdout_all, __tribute_bytes_print, __tribute_io_write"]}
{"id": "C03", "title": "read_line is independent of how the OS chunks standard input", "statement": "Successive read_line calls on one thread return the successive lines of the input byte stream (terminator '\\n' and one '\\r' directly before it removed, a final unterminated line returned once, then end-of-file for ever), irrespective of how the OS splits the stream into reads and how often reads are interrupted.", "quantifier": "every input byte stream, every split of it into non-empty chunks of at most the buffer size, every placement of interruptions, any number of read_line calls", "why_tests_cant": "Chunk boundaries can fall anywhere, e.g. between '\\r' and '\\n'; there are infinitely many.", "anchors": ["crates/tribute-runtime/src/lib.rs: StdinBuffer::read_byte, read_line_with, line_result, __tribute_io_read_line"]}
{"id": "C04", "title": "A read_line result is valid UTF-8 text or an error", "statement": "read_line yields a line only if its bytes are well-formed UTF-8, yields the invalid-encoding error exactly when the line is not, and a system error carries the OS code.", "quantifier": "every stream of read events", "why_tests_cant": "Encodings and event streams are unbounded.", "anchors": ["crates/tribute-runtime/src/lib.rs: line_result, read_line_with"]}
{"id": "C05", "title": "Byte-sequence primitives compute the mathematical operations", "statement": "concat returns the concatenation, slice returns exactly the requested range when it is in bounds and aborts otherwise, range_equal answers true exactly when both ranges are in bounds and equal; the operands are unchanged, also when the operands are themselves slices that share a buffer.", "quantifier": "every heap of byte values built by any sequence of literal/concat/slice calls, every 32-bit start, end and length", "why_tests_cant": "Aliasing between slices and arbitrary index combinations (including near 2^32) cannot be enumerated.", "anchors": ["crates/tribute-runtime/src/lib.rs: __tribute_bytes_concat, __tribute_bytes_slice_or_panic, __tribute_bytes_range_equal, __tribute_bytes_len"]}
{"id": "C06", "title": "Handler prompt tags are fresh", "statement": "On one thread, any two prompt tags handed out fewer than 2^32 allocations apart are different, and tag allocation on one thread does not influence another thread's tags.", "quantifier": "every interleaving of tag allocations over any number of threads", "why_tests_cant": "Needs all interleavings and the wrap-around point after 2^32 allocations.", "anchors": ["crates/tribute-runtime/src/tls.rs: ThreadState::next_tag", "crates/tribute-runtime/src/lib.rs: __tribute_next_tag"]}
{"id": "C07", "title": "Thread-local storage is initialised exactly once", "statement": "However many threads call the initialiser concurrently, the OS key is created at most once, and every initialiser call that returns leaves the published key visible; no caller returns while the key is still unpublished.", "quantifier": "every number of threads and every interleaving of their atomic steps", "why_tests_cant": "Schedules are unbounded; a racy window is not reliably hit by a test.", "anchors": ["crates/tribute-runtime/src/tls.rs: posix::tls_init, posix::thread_state"]}
{"id": "C08", "title": "Int.parse accepts exactly the signed decimal numerals in range", "statement": "Int.parse returns Ok(n) exactly for an optional '+' or '-' followed by one or more ASCII digits denoting n with -2^31 <= n < 2^31; returns OutOfRange exactly for such a numeral denoting a number outside that range; returns InvalidSyntax for every other byte string. It never wraps and never indexes out of bounds.", "quantifier": "every string of fewer than 2^31 bytes, any rope shape, on both code generators", "why_tests_cant": "Overflow happens at digit boundaries near 2^31 for arbitrarily long numerals and leading zeros.", "anchors": ["lib/std/prelude.trb: Int::parse, parse_after_sign, parse_digits, decimal_step_overflows, decimal_digit_or_invalid"]}
{"id": "C09", "title": "Int.to_string and Int.parse are inverse", "statement": "For every Int n, parse(to_string(n)) is Ok(n); to_string(n) is the canonical decimal numeral (no leading zero, '-' only for negatives), so distinct integers print differently.", "quantifier": "all 2^32 Int values", "why_tests_cant": "The minimum value and every digit count must work; exhaustive testing is 2^32 cases and still would not cover the text direction.", "anchors": ["lib/std/prelude.trb: Int::to_string, format_positive, format_negative, positive_digit_string, negative_digit_string"]}
{"id": "C10", "title": "String equality ignores rope shape", "statement": "Two strings compare equal exactly when their byte contents are equal, for any rope shapes including empty leaves and unaligned chunk boundaries; the comparison terminates, never reads outside a leaf, and != is its negation.", "quantifier": "every pair of rope trees whose total length is below 2^32", "why_tests_cant": "Tree shapes and chunk alignments are unbounded.", "anchors": ["lib/std/prelude.trb: String::(==), (!=), rope_equal, cursors_equal, next_cursor"]}
{"id": "C11", "title": "String length, concatenation and flattening agree", "statement": "len(s) is the number of bytes of to_bytes(s) and concat(a,b) flattens to the bytes of a followed by the bytes of b, for every string built from literals and concatenation.", "quantifier": "every rope built by any nesting of concat, with total length below 2^32", "why_tests_cant": "The cached length must be right at every node of an unbounded tree.", "anchors": ["lib/std/prelude.trb: String::len, concat, to_bytes, from_bytes, empty"]}
{"id": "C12", "title": "Safe byte accessors never abort", "statement": "Bytes.slice(b,s,e) returns the bytes of b between the clamped bounds and Bytes.get(b,i) returns Some of the i-th byte exactly when i < len; neither ever reaches the aborting primitive with out-of-range indices, for any Nat arguments.", "quantifier": "every byte sequence shorter than 2^32 and every pair of 32-bit indices", "why_tests_cant": "All relative orders of start, end and length, including reversed and huge indices.", "anchors": ["lib/std/prelude.trb: Bytes::slice, Bytes::get", "crates/tribute-runtime/src/lib.rs: __tribute_bytes_slice_or_panic"]}
{"id": "C13", "title": "Struct fields never overlap", "statement": "In a computed struct layout every field lies inside the object, is aligned to its own alignment, fields appear in declaration order and no two fields share a byte; the total size is a multiple of the alignment and no larger than needed for natural alignment.", "quantifier": "every list of field types (total size below 2^32)", "why_tests_cant": "Padding interacts across arbitrarily many fields.", "anchors": ["crates/trunk-ir/src/adt_layout.rs: compute_struct_layout, type_size_align"]}
{"id": "C14", "title": "Enum payloads never overlap the tag and fit every variant", "statement": "In a computed enum layout the tag does not overlap any field, every field of every variant is aligned and inside the object, fields of one variant do not overlap, and variants have distinct consecutive tags.", "quantifier": "every list of variants with any field lists", "why_tests_cant": "The running maximum alignment is shared between variants, so one variant's layout can affect another's size.", "anchors": ["crates/trunk-ir/src/adt_layout.rs: compute_enum_layout, find_variant_layout"]}
{"id": "C15", "title": "Dominance analysis is exact", "statement": "The analysis terminates and reports that block a dominates block b exactly when b is reachable from the entry and every control-flow path from the entry to b passes through a; the reachable flag is exact.", "quantifier": "every finite control-flow graph, including unreachable blocks, self loops and irreducible loops", "why_tests_cant": "Graphs and paths are unbounded.", "anchors": ["crates/trunk-ir/src/dominance.rs: DominatorTree::compute, dominates, is_reachable"]}
{"id": "C16", "title": "Constant folding computes what the machine computes", "statement": "Whenever an integer operation is folded, to a constant or to one of its operands, the replacement has at the operation's width the same value as executing the operation, for all values of the non-constant operand; a division or remainder that would trap is never folded.", "quantifier": "every integer width 1..128, every constant attribute value, every runtime value of the other operand", "why_tests_cant": "The space is 2^256 per opcode; wrap-around and sign boundaries differ per width.", "anchors": ["crates/trunk-ir/src/dialect/arith.rs: fold_addi, fold_subi, fold_muli, fold_divsi, fold_divui, fold_remsi, fold_remui, fold_and, fold_or, fold_xor, wrap_signed_to_width, is_signed_overflow_at_width, width_mask_u128"]}
{"id": "C17", "title": "Dead-code elimination preserves behaviour", "statement": "Removing operations by dead-code elimination leaves the sequence of effects and the value of every remaining operation unchanged, never removes an impure operation, and at the fixpoint no removable operation remains.", "quantifier": "every operation list and every assignment of operand values and effects", "why_tests_cant": "Use chains of unbounded length need repeated sweeps.", "anchors": ["crates/trunk-ir/src/transforms/dce.rs: eliminate_dead_code, sweep_dead_ops_in_region, is_dead"]}
{"id": "C18", "title": "Unused-function elimination keeps everything reachable", "statement": "A function that can be reached from an entry point, an exported or ABI function through calls or function references is never removed, and every function removed is unreachable; running the pass again removes nothing.", "quantifier": "every module (call graph), every set of entry points", "why_tests_cant": "Reachability over unbounded call graphs including cycles and nested modules.", "anchors": ["crates/trunk-ir/src/transforms/global_dce.rs: GlobalDce, compute_reachable, analyze_module_region, filter_region"]}
{"id": "C19", "title": "Recursion detection is exact", "statement": "A function is reported recursive exactly when it lies on a cycle of the call graph; the strongly connected components partition the functions and two functions share a component exactly when each reaches the other.", "quantifier": "every call graph", "why_tests_cant": "Cycles of unbounded length, nested and overlapping.", "anchors": ["crates/trunk-ir/src/transforms/call_graph.rs: tarjan_scc, recursive_functions, strongconnect"]}
{"id": "C20", "title": "Inlining preserves function results", "statement": "Replacing a call by the callee's body gives the same effects and results as performing the call, including when the call's arguments repeat or the callee returns its own parameter, and a recursive function is never inlined into itself.", "quantifier": "every caller and every single-block callee body, every argument valuation", "why_tests_cant": "Value renaming must be right for arbitrary bodies.", "anchors": ["crates/trunk-ir/src/transforms/inline.rs: splice_callee_body_before, inline_single_call, should_inline", "crates/trunk-ir/src/ir_mapping.rs: IrMapping"]}
{"id": "C21", "title": "Liveness analysis is exact", "statement": "The computed live-in set of a block contains a pointer exactly when some path from the start of the block reaches a use of that pointer before a definition of it; the analysis terminates.", "quantifier": "every control-flow graph and every use/def assignment", "why_tests_cant": "Paths through loops are unbounded.", "anchors": ["crates/tribute-passes/src/native/rc_insertion.rs: compute_liveness, compute_use_def_sets"]}
{"id": "C22", "title": "Removing retain/release pairs does not free a live object", "statement": "Deleting a retain together with a later release of the same pointer never lets an object be freed while the program still uses it and never changes which objects are freed at the end.", "quantifier": "every basic block and every heap, including objects owned by other objects", "why_tests_cant": "The unsafe interleaving needs an owner whose release recursively frees the object between the pair.", "anchors": ["crates/tribute-passes/src/native/rc_optimization.rs: eliminate_paired_rc, eliminate_one_pair, is_barrier_for, is_proven_non_escaping_use"]}
{"id": "C23", "title": "Reference-count insertion never frees an object that is still used", "statement": "In a function body after reference-count insertion, along every control-flow path each value that the function owns is released at most as often as it is acquired and never before its last use, and on paths through straight-line code every owned value is released exactly once.", "quantifier": "every function body and every control-flow path through it", "why_tests_cant": "Balance must hold along every path of an unbounded control-flow graph.", "anchors": ["crates/tribute-passes/src/native/rc_insertion.rs: insert_rc_in_block, compute_liveness, apply_insertion_plan"]}
{"id": "C24", "title": "Lowered retain and release implement the counting discipline", "statement": "The generated retain/release code leaves null pointers alone, changes the count by exactly one otherwise, and calls the destructor exactly when the last reference goes away, under any interleaving of threads sharing the object.", "quantifier": "every number of threads, every interleaving of their atomic retain/release steps", "why_tests_cant": "Schedules are unbounded.", "anchors": ["crates/tribute-passes/src/native/rc_lowering.rs: lower_retain, lower_release", "crates/tribute-rc/src/lib.rs"]}
{"id": "C25", "title": "Runtime type indices are unambiguous", "statement": "Every heap-allocated type gets one runtime index, different types get different indices, none collides with the reserved indices, and the index does not change once handed out.", "quantifier": "every sequence of type registrations", "why_tests_cant": "Histories are unbounded.", "anchors": ["crates/tribute-passes/src/native/rtti.rs: RttiMap::get_or_insert"]}
{"id": "C26", "title": "Unification is sound", "statement": "When the type solver accepts a set of constraints, applying the resulting substitution to both sides of every accepted type equation gives types that are equal (up to the documented wildcards Error and Never and effect-set equality).", "quantifier": "every constraint set over all types", "why_tests_cant": "Types and constraint sets are unbounded.", "anchors": ["crates/tribute-front/src/typeck/solver.rs: TypeSolver::solve, unify_types, unify_rows, TypeSubst::apply_with_rows"]}
{"id": "C27", "title": "Type inference never builds an infinite type", "statement": "After any sequence of unifications the substitution is acyclic, so applying it to a type terminates; an equation that would need an infinite type is rejected.", "quantifier": "every sequence of unification calls from the empty solver", "why_tests_cant": "Cycles can be built through arbitrarily long chains of variables, including through effect rows.", "anchors": ["crates/tribute-front/src/typeck/solver.rs: bind_type_var, occurs_in, row_occurs_in, apply_with_rows"]}
{"id": "C28", "title": "Fresh inference variables are fresh", "statement": "A variable handed out by the solver differs from every variable handed out before and from every variable occurring in the constraints it has been given.", "quantifier": "every interleaving of fresh-variable requests and constraint solving", "why_tests_cant": "Collisions appear only after particular histories.", "anchors": ["crates/tribute-front/src/typeck/solver.rs: fresh_type_var, fresh_row_var, reserve_constraint_vars"]}
{"id": "C29", "title": "Generalisation and instantiation are inverse", "statement": "Generalising a type and instantiating the scheme at the original variables gives back the type; instantiating at fresh variables gives a type that differs only by the renaming; quantified variables are exactly the unresolved ones in order of first appearance.", "quantifier": "every type without already-quantified variables, every solver state it can be resolved in", "why_tests_cant": "Types are unbounded trees.", "anchors": ["crates/tribute-front/src/typeck/solver.rs: generalize, collect_unresolved_univars, replace_univars_with_bound_and_local", "crates/tribute-front/src/typeck/subst.rs: substitute_bound_vars, instantiate_scheme_for_solver"]}
{"id": "C30", "title": "Effect-row operations are set operations", "statement": "add, remove, union and contains on effect rows agree with set insertion, deletion, union and membership; none of them loses an effect or introduces a duplicate; the tail variable is kept, and a union of two open rows gets a fresh tail.", "quantifier": "every pair of effect rows", "why_tests_cant": "Rows are unbounded and order must not matter.", "anchors": ["crates/tribute-front/src/typeck/effect_row.rs: contains, add_effect, remove_effect, remove_with_constraint, union, find_conflicting_effects"]}
{"id": "C31", "title": "Unified effect rows denote the same effects", "statement": "When two effect rows are unified successfully, applying the solution to both rows yields the same set of effects and the same tail.", "quantifier": "every pair of effect rows over any abilities and type arguments", "why_tests_cant": "Rows may mention one ability several times at different type arguments.", "anchors": ["crates/tribute-front/src/typeck/solver.rs: unify_rows, unify_effects_as_sets, compute_effect_difference_with_unify, compute_effect_split_with_unify"]}
{"id": "C32", "title": "Specialised function names are unique", "statement": "Two specialisations of a generic function get the same generated name only if their type arguments are the same.", "quantifier": "every pair of type-argument lists", "why_tests_cant": "Injectivity ranges over pairs of unbounded type trees.", "anchors": ["crates/tribute-front/src/monomorphize/mangle.rs: mangle_name, write_type_mangled"]}
{"id": "C33", "title": "Calling-convention inference is a least upper bound", "statement": "The convention chosen for a function is at least the one demanded by every effect in its row (and full CPS if the row is open or mentions an unknown ability), and no stronger than needed; adding effects never weakens it; the encoding of conventions to bytes is reversible.", "quantifier": "every effect row and every table of ability requirements", "why_tests_cant": "Rows and tables are unbounded.", "anchors": ["crates/tribute-core/src/calling_convention.rs: CallingConvention", "crates/tribute-front/src/ast/calling_convention.rs: calling_convention_for_effect_row"]}
{"id": "C34", "title": "Name lookup respects shadowing", "statement": "An unqualified name resolves to the module's own definition if there is one, otherwise to the latest explicit import, otherwise to the prelude; merging the prelude never changes what an already visible name means.", "quantifier": "every sequence of definitions, imports and merges", "why_tests_cant": "Histories are unbounded.", "anchors": ["crates/tribute-front/src/resolve/env.rs: ModuleEnv"]}
{"id": "C35", "title": "A case accepted as exhaustive matches every value", "statement": "When the checker records a case expression as exhaustive, every value of the scrutinee type is matched by an arm without a guard.", "quantifier": "every list of arms and every value of the type", "why_tests_cant": "Values and nested patterns are unbounded.", "anchors": ["crates/tribute-front/src/typeck/checker/expr.rs: check_exhaustiveness, list_patterns_are_exhaustive, collect_covered_variants, is_catch_all_pattern"]}
{"id": "C36", "title": "Printed IR text reads back", "statement": "Strings, byte strings, symbols and integers printed in the textual IR parse back to the same value, and parsing consumes exactly the printed text.", "quantifier": "every string, every byte sequence, every symbol, every i128", "why_tests_cant": "All character sequences including quotes, backslashes, control characters.", "anchors": ["crates/trunk-ir/src/printer.rs: write_escaped_string, write_escaped_bytes, write_symbol", "crates/trunk-ir/src/parser/raw.rs: string_lit, raw_bytes_string_lit, symbol_ref, integer_lit"]}
{"id": "C37", "title": "String literals mean the same in expressions and patterns", "statement": "A string literal denotes the same text when written as an expression and when written as a pattern, and lowering a literal never crashes the compiler.", "quantifier": "every literal accepted by the grammar", "why_tests_cant": "All combinations of escapes.", "anchors": ["crates/tribute-front/src/astgen/expressions.rs: parse_string_literal, process_escape_sequences", "crates/tribute-front/src/astgen/patterns.rs: parse_string_literal, unescape_string"]}
{"id": "C38", "title": "Integer literals denote their value or are rejected", "statement": "A natural or integer literal in any supported base, with digit separators, denotes its mathematical value if that fits 64 bits and is rejected otherwise; expressions and patterns agree.", "quantifier": "every literal text", "why_tests_cant": "Boundary at 2^63 and 2^64 in four bases with arbitrary underscores.", "anchors": ["crates/tribute-front/src/astgen/expressions.rs: parse_nat_literal, parse_int_literal", "crates/tribute-front/src/astgen/patterns.rs: parse_nat_literal, parse_int_literal"]}
{"id": "C39", "title": "Static data is placed without overlap and shared when equal", "statement": "Every byte string registered for the WebAssembly data section is stored at the returned offset, entries do not overlap, equal data is stored once, and earlier offsets stay valid.", "quantifier": "every sequence of registrations with total size below 2^32", "why_tests_cant": "Histories are unbounded.", "anchors": ["crates/trunk-ir-wasm-backend/src/data_registry.rs: DataRegistry::add_bytes, add_string"]}
{"id": "C40", "title": "Editor positions and byte offsets correspond", "statement": "Converting a byte offset at a character boundary to an editor (line, UTF-16 column) position and back returns the offset, for every document; an out-of-range column is clamped to the end of the line.", "quantifier": "every document text and every character-boundary offset", "why_tests_cant": "Documents with characters outside the basic plane, empty lines and missing final newline.", "anchors": ["src/lsp/server.rs: position_from_offset, offset_from_position"]}
{"id": "C41", "title": "Checked byte access stops the program out of range", "statement": "Bytes.get_or_panic(b,i) returns the i-th byte when i < len and stops the program otherwise; it never returns or touches memory outside b.", "quantifier": "every byte value (including slices of longer buffers) and every 32-bit index", "why_tests_cant": "The out-of-range space is unbounded and an unchecked read usually returns plausible data instead of failing.", "anchors": ["lib/std/prelude.trb: Bytes::get_or_panic", "crates/tribute-passes/src/native/intrinsic_to_native.rs: __bytes_get_or_panic", "crates/tribute-passes/src/wasm/intrinsic_to_wasm.rs"]}
{"id": "C42", "title": "Freeing an object releases what it holds, once, and its own memory", "statement": "When the last reference to a struct or enum value goes away, every heap object it refers to (for an enum: through the live variant) is released exactly once, no other word is treated as a reference, and then exactly the memory that was allocated for the object is freed.", "quantifier": "every struct and enum declaration, every variant, every field value (including null)", "why_tests_cant": "Layouts, variants and field contents are unbounded; leaks and stray frees do not show in outputs.", "anchors": ["crates/tribute-passes/src/native/rtti.rs: generate_release_function_for_struct, generate_release_function_for_enum", "crates/tribute-passes/src/native/adt_rc_header.rs: StructNewPattern, VariantNewPattern", "crates/trunk-ir-cranelift-backend/src/translate.rs: __tribute_deep_release"]}
{"id": "C43", "title": "Hidden parameters are laid out consistently between callers and callees", "statement": "For every callable, the lowered parameter list is evidence (when the convention needs it), then the continuation carrier (when it needs one), then the source parameters; the documented offset points at the first source parameter, and a closure's environment is inserted where callees read it.", "quantifier": "every convention and every parameter list", "why_tests_cant": "All conventions and arities, on both sides of each call.", "anchors": ["crates/tribute-core/src/callable_abi.rs: CallableAbi", "crates/tribute-core/src/calling_convention.rs: closure_environment_index"]}
{"id": "C44", "title": "What a use-import means does not depend on hash order", "statement": "Resolving the use declarations of a module gives the same environment whatever order the imports happen to be visited in.", "quantifier": "every environment, every set of imports, every two iteration orders", "why_tests_cant": "Hash iteration order changes from run to run; a test sees one order.", "anchors": ["crates/tribute-front/src/resolve/mod.rs: resolve_use_imports"]}
{"id": "C45", "title": "The language server's documents are the editor's", "statement": "After any sequence of open, change and close notifications, the text the server holds for each document is the text the editor has: a change replaces exactly the text between its two positions.", "quantifier": "every session, every document text, every change", "why_tests_cant": "Sessions are unbounded; one misplaced edit silently shifts everything after it.", "anchors": ["src/lsp/server.rs: handle_notification, did_change, apply_change", "src/database.rs: open_document, close_document"]}
{"id": "C46", "title": "The incremental parser is told exactly what changed", "statement": "For every change, the bytes and the (row, column) points handed to the incremental parser are those of the start, old end and new end of the change, as the parser itself counts them.", "quantifier": "every document text, every change", "why_tests_cant": "Multi-line replacements, multi-byte characters and all line terminators.", "anchors": ["src/lsp/server.rs: apply_change, byte_line_col, point_after_text"]}
{"id": "C47", "title": "Completion uses the identifier before the cursor", "statement": "The completion prefix is the longest run of identifier characters that ends at the cursor, whatever their encoded size.", "quantifier": "every document text and every cursor position at a character boundary", "why_tests_cant": "All mixtures of one- to four-byte characters.", "anchors": ["src/lsp/server.rs: extract_completion_prefix"]}
{"id": "C48", "title": "Byte-string and rune literals denote what is written", "statement": "A byte-string literal denotes exactly the bytes written, so that every byte sequence can be written, and a rune literal denotes the character written or escaped.", "quantifier": "every byte-string and rune literal", "why_tests_cant": "All combinations of escapes, all byte values, any number of hashes.", "anchors": ["crates/tribute-front/src/astgen/expressions.rs: parse_bytes_literal, process_escape_sequences, parse_rune_literal"]}
{"id": "C50", "title": "Variables drawn while checking a function are new", "statement": "While a function body is checked, a new type or effect-row variable differs from the variables drawn before, from those in the constraints collected and from those in the types of the visible local bindings.", "quantifier": "every history of drawing variables, instantiating schemes, collecting constraints, entering and leaving scopes and generalising let bindings", "why_tests_cant": "A collision needs a particular interleaving of constraints and let bindings.", "anchors": ["crates/tribute-front/src/typeck/func_context.rs: fresh_type_var, fresh_row_var, instantiate_scheme", "crates/tribute-front/src/typeck/checker/expr.rs: generalize_and_bind_pattern_with_ctx"]}
{"id": "C51", "title": "A let binding is generalised exactly where it may be", "statement": "A let-bound name has the solved type of its value. If evaluating the value may have an effect the type is not polymorphic; otherwise it is polymorphic in exactly the type and effect variables that are not in the type of a visible binding, and each use gets a copy in which only these are renamed.", "quantifier": "every context of constraints and visible bindings, every value type", "why_tests_cant": "Types, environments and constraint sets are unbounded.", "anchors": ["crates/tribute-front/src/typeck/checker/expr.rs: generalize_and_bind_pattern_with_ctx", "crates/tribute-front/src/typeck/solver.rs: generalize_excluding_with_mapping", "crates/tribute-front/src/typeck/func_context.rs: instantiate_scheme"]}
{"id": "C49", "title": "Each use of a generic function gets the specialisation for its own types", "statement": "The type arguments worked out for a use of a generic function are those at which the function's declared type is the type of the use; whenever every type parameter is determined by the types of the parameters and the result they are worked out, recorded if they are concrete, and the use is redirected to the specialisation recorded for exactly these arguments.", "quantifier": "all polymorphic types, all instances of them, all sets of recorded specialisations", "why_tests_cant": "Types nest without bound and parameters may occur any number of times; tests check a few instances.", "anchors": ["crates/tribute-front/src/monomorphize/collect.rs: extract_type_args, extract_recursive, is_concrete_type", "crates/tribute-front/src/monomorphize/rewrite.rs: try_rewrite_ref", "crates/tribute-front/src/monomorphize/mod.rs: build_rewrite_map"]}
{"id": "C52", "title": "A case expression runs the first arm that accepts the value", "statement": "Evaluating a case expression on a value of the scrutinee's type runs the body of the first arm whose pattern matches and whose guard holds, with every variable of the pattern bound to the part of the value at its place; no arm whose pattern does not match is entered.", "quantifier": "all lists of arms with any patterns and guards, all values of the type", "why_tests_cant": "Patterns and values nest without bound and the tests contain no nested constructor pattern.", "anchors": ["crates/tribute-front/src/ast_to_ir/lower/case.rs: lower_case_chain, emit_pattern_check, emit_logical_pattern_check, bind_pattern_fields", "crates/tribute-front/src/ast_to_ir/lower/logical.rs: lower_case_chain", "crates/tribute-front/src/ast_to_ir/lower/mod.rs: is_irrefutable_pattern"]}
{"id": "C53", "title": "The inlining pass ends", "statement": "For every module and every configuration the inlining pass ends after finitely many rounds, and then no call is left that it would inline.", "quantifier": "all modules, however their functions call each other, and all configurations", "why_tests_cant": "The pass has no iteration limit; call graphs are unbounded and every inlined body brings new calls.", "anchors": ["crates/trunk-ir/src/transforms/inline.rs: inline_functions_with_config, should_inline"]}
{"id": "C54", "title": "Numeric operators compute what they say on both targets", "statement": "The operators + - * / % and the six comparisons of Int, Nat and Float compute their mathematical meaning (wrapping 32-bit arithmetic, truncating division that traps on zero and on overflow, IEEE floats), whether they are called directly or passed as values, on the native target and on WebAssembly.", "quantifier": "every operator, every pair of operands, both ways of using an operator, both targets", "why_tests_cant": "2^64 pairs of operands per operator; the chain of four lowering tables is only tested entry by entry.", "anchors": ["lib/std/prelude.trb", "crates/tribute-passes/src/intrinsic_to_arith.rs", "crates/tribute-front/src/ast_to_ir/lower/logical.rs: lower_arith_intrinsic", "crates/trunk-ir-cranelift-backend/src/passes/arith_to_clif.rs", "crates/trunk-ir-cranelift-backend/src/function.rs: parse_int_cc, parse_float_cc, translate_type", "crates/trunk-ir-wasm-backend/src/passes/arith_to_wasm.rs"]}
{"id": "C55", "title": "Each arithmetic operation means the same on both targets", "statement": "For every arithmetic operation of the IR and operands of its types, the code generated for the native target and the code generated for WebAssembly give the same value or both trap.", "quantifier": "every operation, every combination of operand and result types, all operand values", "why_tests_cant": "The two lowerings are separate tables; no test runs the same operation on both targets.", "anchors": ["crates/trunk-ir-cranelift-backend/src/passes/arith_to_clif.rs", "crates/trunk-ir-wasm-backend/src/passes/arith_to_wasm.rs"]}
{"id": "C56", "title": "Lowering structured control flow to branches preserves behaviour", "statement": "Replacing the if, loop and switch operations of a function by blocks and branches changes nothing observable: called with the same arguments in the same state, the lowered function returns the same values or traps in the same way, with the same effects, or like the original does not end.", "quantifier": "all function bodies that satisfy the rules of the IR, any nesting of if, loop and switch with any number of blocks in each region, all meanings of the other operations, all arguments and states", "why_tests_cant": "Nesting is unbounded and loops run any number of times; the tests compare the printed result of a few shapes.", "anchors": ["crates/trunk-ir/src/transforms/scf_to_cf.rs: lower_scf_if, lower_scf_loop, lower_scf_switch, replace_yield_terminators, replace_continue_break, transform_block", "crates/trunk-ir/src/rewrite/helpers.rs: split_block, inline_region_blocks"]}
{"id": "C57", "title": "Lowering structured control flow ends and leaves only branches", "statement": "For every function body that satisfies the rules of the IR the lowering ends without a panic, no structured operation is left, and the result satisfies the rules again: labels and definitions are unique, branches have targets, terminators end their blocks.", "quantifier": "all function bodies that satisfy the rules of the IR", "why_tests_cant": "The pass recurses into the blocks it creates while it walks the list they are added to; nesting is unbounded.", "anchors": ["crates/trunk-ir/src/transforms/scf_to_cf.rs: lower_scf_to_cf, transform_region, transform_block"]}
{"id": "C58", "title": "Use chains are exact", "statement": "After any sequence of calls of the IR storage the uses reported for a value are exactly the operands, of operations that have not been removed, that are this value, each once. Replacing all uses of a value never panics, replaces it in every such operation and changes nothing else.", "quantifier": "all sequences of calls, all operations, values and operand positions", "why_tests_cant": "Use chains are edited incrementally by ten different calls; histories are unbounded and tests check a few.", "anchors": ["crates/trunk-ir/src/context.rs: create_op, set_op_operand, push_op_operand, remove_op_operand, remove_op, replace_all_uses, uses, has_uses"]}
{"id": "C59", "title": "Every value has one definition and a type", "statement": "After any sequence of calls every value is the result of one operation or the argument of one block, at one position, where the lists of results and arguments name it; asking for its type never panics; a value stays with the operation or block that defined it.", "quantifier": "all sequences of calls, all values", "why_tests_cant": "Definitions, result lists and argument lists are kept in separate tables that every call must keep in step.", "anchors": ["crates/trunk-ir/src/context.rs: create_op, create_block, add_block_arg, prepend_block_arg, value_def, value_ty"]}
{"id": "C60", "title": "Containment links agree in both directions", "statement": "After any sequence of calls an operation is in a block exactly if the block lists it, a block is in a region exactly if the region lists it, and a region belongs to an operation exactly if the operation lists it, each once; so nothing is in two places.", "quantifier": "all sequences of calls, all operations, blocks and regions", "why_tests_cant": "Parent links and lists are separate fields changed by separate calls.", "anchors": ["crates/trunk-ir/src/context.rs: push_op, insert_op_before, remove_op_from_block, detach_op, create_region, detach_region, create_op"]}
{"id": "C61", "title": "A clone is a copy with everything in it renamed", "statement": "Cloning an operation or region makes a copy of it: new operations, blocks, regions and values of the same kinds and types, in which every use of a value or block defined inside refers to the new one and every other use is mapped as the caller asked; nothing that existed changes.", "quantifier": "all operations of finite nesting in all stores that calls can reach, all given mappings", "why_tests_cant": "Nesting and the order of blocks are unbounded; the tests clone a few small regions.", "anchors": ["crates/trunk-ir/src/context.rs: clone_op, clone_region", "crates/trunk-ir/src/ir_mapping.rs"]}
{"id": "C62", "title": "Names follow lexical scope", "statement": "In a source file a name means the nearest enclosing binder of that name (parameter, let, pattern variable, handler parameter) and, when there is none, what the module's declarations and imports give it; each binder has an identity of its own, a name after its scope ends means again what it meant before, and a name is reported unknown exactly when nothing binds it.", "quantifier": "all programs and all environments of declared names", "why_tests_cant": "Nesting of blocks, lambdas, cases and handlers is unbounded and shadowing interacts with every construct.", "anchors": ["crates/tribute-front/src/resolve/resolver.rs: resolve_module, resolve_expr, resolve_pattern, resolve_stmt, with_scope"]}
{"id": "C63", "title": "Go to definition leads to the definition", "statement": "Asking the language server for the definition of the name at a cursor gives the declaration or binder that the compiler resolves this name to.", "quantifier": "all programs, all names in them and all cursors inside", "why_tests_cant": "Depends on every combination of shadowing, equal names of different kinds and nested spans.", "anchors": ["src/lsp/definition_index.rs: DefinitionIndex, definition_at, references_of"]}
{"id": "C64", "title": "Rename keeps the meaning of the program", "statement": "A rename the language server accepts edits exactly the defining name and its references, and the edited program resolves to the same program with this one name changed.", "quantifier": "all programs, all cursors, all new names", "why_tests_cant": "A rename must be right for all programs around it; tests try a few.", "anchors": ["src/lsp/definition_index.rs: can_rename, references_of", "src/lsp/server.rs: rename"]}
{"id": "C65", "title": "Qualified names reach what modules declare", "statement": "Whatever an inline module, struct, enum or ability declares is found by its path and name, whatever the nesting; nothing else is found there; and two functions with the same identity are the same function.", "quantifier": "all trees of declarations in which no body introduces a name twice", "why_tests_cant": "Nesting of modules is unbounded and names of modules, types and members share tables.", "anchors": ["crates/tribute-front/src/resolve/mod.rs: build_env, collect_definition", "crates/tribute-front/src/resolve/env.rs"]}
{"id": "C66", "title": "A constructor has the type it was declared in", "statement": "The name of a constructor, written with its path, has the type of the declaration it comes from: the enum or struct around it and that number of fields.", "quantifier": "all trees of declarations whose types have different names and whose variants differ within a type", "why_tests_cant": "Two tables built by two passes are joined by computed identities; whether they collide depends on the whole program.", "anchors": ["crates/tribute-front/src/resolve/mod.rs: collect_definition", "crates/tribute-front/src/typeck/checker/collect.rs: collect_struct_def, collect_enum_def", "crates/tribute-front/src/typeck/context.rs"]}
{"id": "C67", "title": "Naming intermediate results does not change what a program does", "statement": "Before effects are lowered, every operand that is not a name or literal gets a name. The program does the same as before: the same computations in the same order, each exactly once, with the same results, under any effects (state, exceptions, control, nontermination); right operands of && and ||, arms, guards, function and handler bodies are still evaluated only when they are reached.", "quantifier": "all expressions whose locals are bound once, all environments, all monads and all meanings of the constructs", "why_tests_cant": "Nesting is unbounded, and names move out of blocks past other operands.", "anchors": ["crates/tribute-front/src/ast_to_ir/normalize.rs: normalize_for_cps, normalize_expr, normalize_block, normalize_to_atom"]}
{"id": "C68", "title": "Naming intermediate results gives the form the lowering expects", "statement": "After it every operand is atomic and blocks stand only where a body starts; the compiler's own check accepts it, and doing it again changes nothing.", "quantifier": "all expressions", "why_tests_cant": "The lowering panics on any other form; nesting is unbounded.", "anchors": ["crates/tribute-front/src/ast_to_ir/normalize.rs: normalize_for_cps, validate_normal_form"]}
{"id": "C69", "title": "Record expressions evaluate their parts as written", "statement": "The values of a record expression, fields and spread, are evaluated in the order in which they are written.", "quantifier": "all record expressions", "why_tests_cant": "Depends on the order of parts and on effects.", "anchors": ["crates/tribute-front/src/astgen/expressions.rs: lower_record_expr", "crates/tribute-front/src/ast_to_ir/normalize.rs: normalize_expr"]}
{"id": "C70", "title": "Closure conversion does not change what a program does", "statement": "Anonymous functions and continuations become ordinary functions with an environment, and closures become pairs of a function and its environment. The program does the same as before: the same operations on data in the same order, the same results, for every program, depth of calls, arguments and state; captured variables have the values they had when the closure was made, evidence comes from the contract of the closure and its caller.", "quantifier": "all programs whose functions use only what is in scope, all meanings of operations on data, all arguments, states and depths of calls", "why_tests_cant": "Lambdas nest without bound and are passed around at run time; a capture taken from the wrong slot shows only for some programs.", "anchors": ["crates/tribute-passes/src/lower_closure_lambda.rs: lower_closure_lambda, lower_single_lambda, LambdaNamer", "crates/tribute-passes/src/closure_lower.rs: lower_closures"]}
{"id": "C71", "title": "Closure conversion ends and leaves no closure", "statement": "The pass that lifts lambdas ends for every program, leaves no lambda when the marks of lambdas and of their closure types agree, gives functions it makes names of their own, and functions use only what they are given; after the second pass no closure value or call of one is left.", "quantifier": "all programs", "why_tests_cant": "The pass repeats until nothing is left; nesting is unbounded.", "anchors": ["crates/tribute-passes/src/lower_closure_lambda.rs: lower_closure_lambda", "crates/tribute-passes/src/closure_lower.rs: lower_closures"]}
{"id": "C72", "title": "Compiled handlers do what handlers mean", "statement": "A program with abilities and handlers, compiled with evidence passing, continuation closures and Normal/Escape answers, gives the answer and the effects the source program has: an operation goes to the innermost handler with an arm for it, the arm runs outside its handle, resume continues the computation under its handler and gives the value of the whole handle, an arm that does not resume abandons the computation.", "quantifier": "all programs, primitive operations, starting states, nestings of handlers, and numbers of operations", "why_tests_cant": "Handlers, continuations and closures meet in unbounded combinations; which evidence or continuation a piece of code gets shows only for particular nestings.", "anchors": ["crates/tribute-front/src/ast_to_ir/lower/expr.rs: lower_comp_normalized, lower_value_normalized", "crates/tribute-front/src/ast_to_ir/lower/handle.rs: lower_handle_answer, build_handler_dispatch_chain", "crates/tribute-front/src/ast_to_ir/lower/control.rs: resume_into_current", "crates/tribute-passes/src/resolve_evidence.rs", "crates/tribute-passes/src/lower_handle_dispatch.rs", "crates/tribute-passes/src/native/evidence.rs"]}
{"id": "C73", "title": "Unhandled operations are rejected", "statement": "In a program the type checker accepts, every operation performed while main runs, except of the builtin ambient ability Io, is performed inside a handler for its ability; and the effect row of a function's type lists every ability whose operations may leave its body.", "quantifier": "all programs, all orders of declarations, annotations, nestings of handlers and runs", "why_tests_cant": "Whether an effect is lost depends on the combination of declaration order, annotations, handlers and row variables; tests cover a few fixed programs.", "anchors": ["crates/tribute-front/src/typeck/func_context.rs: merge_effect_with_origin", "crates/tribute-front/src/typeck/checker/expr.rs: check_expr_with_ctx, infer_expr_type_with_ctx, infer_call_with_ctx, remove_handled_effects", "crates/tribute-front/src/typeck/checker/func_check.rs: check_func_decl", "crates/tribute-front/src/typeck/checker/mod.rs", "crates/tribute-front/src/typeck/solver.rs: unify_rows"]}
{"id": "C74", "title": "Structured control flow compiles to WebAssembly with the same meaning", "statement": "A function body with conditionals and loops (results, break, continue, nested in any way) that satisfies the rules of the IR is compiled to WebAssembly instructions that are valid and that, for every meaning of the other operations, leave the function in the same way with the same values in the same state, trap in the same cases, and run forever in the same cases.", "quantifier": "all function bodies that satisfy the rules of the IR, all arguments, states and meanings of the other operations, all numbers of rounds", "why_tests_cant": "Branch depths depend on how conditionals, loops and blocks are nested; a test fixes one nesting and a few inputs.", "anchors": ["crates/trunk-ir-wasm-backend/src/passes/scf_to_wasm.rs: ScfIfPattern, ScfLoopPattern, ScfYieldPattern, ScfContinuePattern, ScfBreakPattern", "crates/trunk-ir-wasm-backend/src/emit.rs: emit_function, assign_locals_in_region, emit_region_ops_nested, region_result_value, set_result_local", "crates/trunk-ir-wasm-backend/src/emit/handlers/control_flow_handlers.rs: handle_if, handle_block, handle_loop, handle_br"]}
{"id": "C75", "title": "A module that the type checker accepts is well typed", "statement": "If the type checker accepts a module without a diagnostic, then every function of the module has, at every type it is given, a body that obeys the usual typing rules: arguments have the types of the parameters, the arms of a case have the type of the whole, patterns match the type they are applied to, a let-bound name is used only at types its value has, methods belong to the type of their receiver, and the result has the declared type.", "quantifier": "all modules (functions, constructors, methods, expressions and patterns of any size), all instances of the functions' types", "why_tests_cant": "The checker walks expressions several times with separately drawn variables and solves in several rounds; whether all connections between types are kept depends on the whole program.", "anchors": ["crates/tribute-front/src/typeck/checker/expr.rs: check_expr_with_ctx, infer_expr_type_with_ctx, convert_expr_kind_with_ctx, infer_call_with_ctx, infer_pattern_type_with_ctx, bind_pattern_vars_with_ctx, generalize_and_bind_pattern_with_ctx", "crates/tribute-front/src/typeck/checker/func_check.rs: check_func_decl, resolve_deferred_methods", "crates/tribute-front/src/typeck/func_context.rs: lookup_local_reference, instantiate_scheme", "crates/tribute-front/src/typeck/context.rs: lookup_method"]}
{"id": "C76", "title": "A module that the type checker accepts does not go wrong when it runs", "statement": "Calling a function of an accepted module with arguments of its parameter types never calls something that is not a function, never calls a function or constructor with a wrong number of arguments, never looks for a method that the receiver does not have, never matches a value against a pattern of another type and never reads an unbound variable; a result has the declared type. It may trap or run forever.", "quantifier": "all accepted modules, all functions of the module and all argument values, all behaviours of the extern functions that respect their declared types, runs of any length", "why_tests_cant": "A run depends on the whole module and on its arguments; a test runs a few programs with a few arguments.", "anchors": ["crates/tribute-front/src/typeck/checker/func_check.rs: check_func_decl", "crates/tribute-front/src/typeck/checker/expr.rs: check_expr_with_ctx, infer_expr_type_with_ctx", "crates/tribute-front/src/typeck/context.rs: lookup_method"]}
{"id": "C77", "title": "A parameter that the compiler only borrows is never kept", "statement": "When native code skips counting a reference for a parameter, because the function only borrows it, then neither that function nor any function it passes the reference on to ever puts it into memory, returns it, or passes it to code that might. The choice of borrowed parameters is always found, is the largest possible one, and does not depend on the order in which functions happen to be visited.", "quantifier": "all modules, all orders of visiting the functions, all runs of any length through any control flow and any nesting of calls", "why_tests_cant": "One function that keeps a borrowed reference gives a use after free in some later run; whether it does depends on all uses in all callees, and on hash order.", "anchors": ["crates/tribute-passes/src/native/ownership_summary.rs: compute_and_attach, value_is_borrowed, classify_borrowed_use, borrowed_use_kind, collect_escaping_function_symbols"]}
{"id": "C78", "title": "A call and the function it calls agree on who gives a reference back", "statement": "For each argument of a call in native code: the call hands over a reference exactly when the function it calls gives one back for that parameter; a tail call hands over all the references it passes. Calls for which no agreement can be found are rejected.", "quantifier": "all modules, all direct and indirect calls, tail calls or not, all summaries of borrowed parameters", "why_tests_cant": "A disagreement is a leak or a double release that shows only in runs that go through that call.", "anchors": ["crates/tribute-passes/src/native/ownership_summary.rs: compute_and_attach, collect_call_contracts, action_for_entry, is_defined_physical_cps_function"]}
{"id": "C79", "title": "A reference that native code does not count never outlives what keeps it alive", "statement": "Native code does not count a reference loaded from an object when the compiler finds that the object outlives its use, nor a borrowed parameter. Whenever such a reference is used, under whatever name, the object it points to is still there: it was read from an object that was kept alive, without interruption, since the reading. The uncounted references themselves are never stored, returned or passed on, except to functions that borrow them too or by a tail call, for which a reference is taken. With these omissions the counting still never gives back a reference it does not have.", "quantifier": "all function bodies with any control flow, all paths of any length, all chains of loads, offsets and casts, all summaries of called functions", "why_tests_cant": "A use after free shows only on a path where the object is given back between the load and the use; all paths of all functions must be covered.", "anchors": ["crates/tribute-passes/src/native/rc_insertion.rs: insert_rc_in_function, analyze_temporary_borrows, resolve_temporary_owner, temporary_is_proven_borrowed, TemporaryUseCollector, value_dominates_op, op_dominates_op, is_proven_temporary_use, analyze_borrowed_parameters, value_is_proven_borrowed"]}
{"id": "C80", "title": "Lists on the native target are what the program says", "statement": "A native program computes with lists what the source says: an empty list, an element put in front of a list, the test for emptiness, the first element and the rest. Taking the first element or the rest of an empty list aborts the program and reads no memory. Whatever a function does, it ends in the same way, with the same results and effects, before and after the compiler has replaced list operations by chains of nodes, and no list operation is left for the code generator.", "quantifier": "all function bodies, structured or not, with any number of list operations at any depth; all arguments, all lists of any length, all states; ends and failure to end", "why_tests_cant": "A wrong branch, a stale operand or a missed nested region shows only in functions of a certain shape.", "anchors": ["crates/tribute-passes/src/native/list.rs: lower, lower_observations, lower_observation, EmptyPattern, PrependPattern, IsEmptyPattern, node_type", "crates/trunk-ir/src/rewrite/helpers.rs: split_block"]}
{"id": "C81", "title": "A primitive value in a generic position comes back unchanged", "statement": "A number, character, truth value, float or nil that is passed where the type is not known (a type variable, the value of a continuation, a handler's result) and is used again at its own type is the value it was, on the native target and on WebAssembly. Boxing changes nothing else in memory and the box starts with one reference.", "quantifier": "all values of all primitive types; all memories and all placements by the allocator; every combination of the codes the compiler has for the two casts (resolved early or by the target); anything that happens to the rest of memory in between", "why_tests_cant": "The round trip has billions of inputs per type, and the code of a cast depends on which of three tables resolves it; tests box small numbers.", "anchors": ["crates/tribute-passes/src/type_converter.rs: generic_type_converter", "crates/tribute-passes/src/native/type_converter.rs: native_type_converter, box_primitive", "crates/tribute-passes/src/wasm/type_converter.rs: wasm_type_converter, box_via_i31, unbox_via_i31", "crates/tribute-passes/src/native/tribute_rt_to_clif.rs: box_value, lower", "crates/tribute-passes/src/wasm/tribute_rt_to_wasm.rs: lower, create_i31_unbox", "crates/trunk-ir/src/conversion/resolve_unrealized_casts.rs: CastResolver::try_resolve_cast"]}
{"id": "C82", "title": "Folding operations never changes what a function does", "statement": "After the optimiser has folded constants, removed casts that cancel out and replaced conditionals on constants by one branch, a function called with the same arguments in the same state ends with the same result, the same effects in the same order, the same abort, or not at all, exactly as before.", "quantifier": "all function bodies of any size and nesting in which every value is defined once and before it is used; all arguments and states; all behaviours of the operations that are not folded; all numbers of loop iterations", "why_tests_cant": "Folds enable each other through replaced values across nested bodies, so the bodies to test are unboundedly many combinations; the tests have one fold each.", "anchors": ["crates/trunk-ir/src/transforms/canonicalize.rs: FoldDispatchPattern, apply_splice, canonicalize", "crates/trunk-ir/src/rewrite/applicator.rs: apply_partial, visit_block", "crates/trunk-ir/src/dialect/scf.rs: fold_if", "crates/trunk-ir/src/dialect/core.rs: fold_unrealized_conversion_cast", "crates/trunk-ir/src/dialect/arith.rs: fold_addi and the others, const_int_value"]}
{"id": "C83", "title": "Folding always settles and leaves nothing to fold", "statement": "Folding reaches a state where nothing more changes within its limit of iterations, running it again changes nothing, and then no operation on constants, no cancelling cast and no conditional that is decided is left.", "quantifier": "all function bodies", "why_tests_cant": "Whether a limit of ten iterations is enough for every body cannot be tested; tests show bodies that need one or two.", "anchors": ["crates/trunk-ir/src/rewrite/applicator.rs: apply_partial, ApplyResult", "crates/trunk-ir/src/transforms/canonicalize.rs: canonicalize", "crates/trunk-ir/src/dialect/scf.rs: fold_if", "crates/trunk-ir/src/dialect/arith.rs: const_int_value, fold_and"]}
{"id": "C84", "title": "Copying generic functions for concrete types never changes what a program does", "statement": "After every generic function has been copied for the concrete types it is used at, the program asks the same things of the outside, in the same order and with the same arguments, performs the same operations, and ends with the same value, goes wrong, or runs on, exactly as before.", "quantifier": "all programs with modules, generic functions, closures, patterns, records and handlers; all arguments; all behaviours of the outside; all numbers of steps", "why_tests_cant": "References are redirected to generated names in all nested positions and over many rounds; tests compile a few small generic programs.", "anchors": ["crates/tribute-front/src/monomorphize/mod.rs: monomorphize_functions, build_rewrite_map", "crates/tribute-front/src/monomorphize/rewrite.rs: rewrite_expr, try_rewrite_ref", "crates/tribute-front/src/monomorphize/specialize.rs: generate_specializations, substitute_expr", "crates/tribute-front/src/monomorphize/collect.rs: collect_instantiations"]}
{"id": "C85", "title": "Exactly the needed instances of generic functions are made, each with its own types", "statement": "A copy of a generic function is made for some types if and only if the program, followed through the copies, uses the function at these types; each such use names that copy afterwards, and the copy is the function with these types in place of its type parameters. Functions as they are written keep everything else.", "quantifier": "all type checked programs whose type parameters can be found from the types of the functions", "why_tests_cant": "Which instances are needed depends on all paths through generic functions; tests look at single calls.", "anchors": ["crates/tribute-front/src/monomorphize/collect.rs: try_record, visit_expr", "crates/tribute-front/src/monomorphize/mod.rs: monomorphize_functions", "crates/tribute-front/src/monomorphize/specialize.rs: specialize_func_decl, substitute_typed_ref", "crates/tribute-front/src/monomorphize/rewrite.rs: try_rewrite_ref"]}
{"id": "C86", "title": "A program that needs finitely many instances of generic functions is compiled", "statement": "If a program needs only finitely many instances of its generic functions, copying them succeeds; the compiler does not panic, however the generic functions call each other.", "quantifier": "all type checked programs", "why_tests_cant": "How deep generic functions call each other is not bounded by any test; the tests go two levels deep.", "anchors": ["crates/tribute-front/src/monomorphize/mod.rs: MAX_TRANSITIVE_SPECIALIZATION_ROUNDS, monomorphize_functions"]}
{"id": "C87", "title": "The types recorded for a copy of a generic function are those of the original at the types of the copy", "statement": "Every node of a copy is the corresponding node of the original, marked with the instance; the type recorded for it is the recorded type of the original with the types of the instance for the type parameters. What is recorded for the source does not change.", "quantifier": "all type checked programs, all tables of recorded types, all instances needed", "why_tests_cant": "Every kind of node in every nested position has to be covered, and later rounds must not overwrite earlier entries.", "anchors": ["crates/tribute-front/src/monomorphize/mod.rs: specialize_metadata, clone_type_table", "crates/tribute-front/src/monomorphize/specialize.rs: semantic_node_ids, type_args_variant", "crates/tribute-front/src/ast/node_id.rs: NodeId::with_variant"]}
{"id": "C88", "title": "On WebAssembly, print and print_line write exactly the text to standard output", "statement": "A call of print or print_line on WebAssembly hands the bytes of the text, and a newline for print_line, to the host in order, each exactly once, whatever part of them the host takes at a time; a call that returns has written all of them. The program's memory is untouched except for the area reserved for output, which grows as needed; if there is no room for the text the program stops and nothing has been written. The bytes are the same as on a native target.", "quantifier": "all texts, all ways to split them, all contents, sizes and limits of the memory, all answers of the host", "why_tests_cant": "The host may take any part of the text, interrupt a call or fail at any point, and texts larger than the memory make it grow; tests print short texts to a host that takes everything.", "anchors": ["crates/tribute-passes/src/wasm/io.rs: build_write_helper, ensure_memory, copy_loop, write_loop", "crates/trunk-ir-wasm-backend/src/emit.rs: emit_function, emit_op_nested", "crates/trunk-ir-wasm-backend/src/emit/handlers/control_flow_handlers.rs: handle_if, handle_loop, handle_br_if"]}
{"id": "C89", "title": "On the native target, values of declared types come back unchanged", "statement": "Whatever structs and enum values a program builds, changes, tests and takes apart, in any order and however the allocator places them: a field read gives what was last stored in that field of that object, a variant test tells the variant the value was built with, a null test tells null from references. Building or changing one object changes no other one and nothing else in memory. A record expression with a base gives a record with the given fields and the base's others.", "quantifier": "all declarations, all sequences of operations on values of these types, all placements of non-overlapping blocks, all initial contents of memory", "why_tests_cant": "Layouts have arbitrarily many fields of mixed widths and objects lie anywhere in memory; a test sees a few layouts, and a store that is too wide goes unnoticed unless something lies behind the object.", "anchors": ["crates/trunk-ir-cranelift-backend/src/passes/adt_to_clif.rs: StructGetPattern, StructSetPattern, VariantIsPattern, VariantGetPattern, RefIsNullPattern", "crates/tribute-passes/src/native/adt_rc_header.rs: StructNewPattern, VariantNewPattern", "crates/tribute-front/src/ast_to_ir/lower/expr.rs: ExprKind::Record"]}
{"id": "C90", "title": "Every module emitted for WebAssembly passes validation", "statement": "A program that type checks and is compiled to WebAssembly gives a module an engine accepts: every operation on records, constructors and erased references becomes instructions whose operands have the types they need, every local holds values of its own type, and the type section mentions only types it defines.", "quantifier": "all modules of functions over declared records, enum constructors and erased references; all numbers of types, fields, functions and operations", "why_tests_cant": "The type section is collected from every operation of the whole program, and one use of a type changes how values of the same type are declared everywhere else; a test sees one program.", "anchors": ["crates/trunk-ir-wasm-backend/src/passes/wasm_gc_to_wasm.rs", "crates/trunk-ir-wasm-backend/src/passes/adt_to_wasm.rs", "crates/trunk-ir-wasm-backend/src/gc_types.rs", "crates/trunk-ir-wasm-backend/src/emit.rs", "crates/trunk-ir-wasm-backend/src/emit/gc_types_collection.rs", "crates/trunk-ir-wasm-backend/src/emit/helpers.rs", "crates/tribute-passes/src/wasm/type_converter.rs"]}
{"id": "C91", "title": "On WebAssembly, values of declared types come back unchanged", "statement": "Whatever records and enum values a function builds, changes, tests, casts and takes apart, and whatever other functions it passes them to: the emitted code returns the same value and leaves the same objects with the same fields. A test of a constructor tells the one the value was built with, values of different declared types are never taken for each other, erasing a value and taking it back at its own type succeeds, and taking it back at another type traps.", "quantifier": "all modules of functions over declared records, enum constructors and erased references, all functions, arguments and call depths", "why_tests_cant": "Type identity rests on indices assigned over the whole program and on casts inserted where a field was widened; two types that share an index are confused only in programs that mix them.", "anchors": ["crates/trunk-ir-wasm-backend/src/passes/adt_to_wasm.rs", "crates/trunk-ir-wasm-backend/src/passes/wasm_gc_to_wasm.rs", "crates/trunk-ir-wasm-backend/src/emit/gc_types_collection.rs", "crates/trunk-ir-wasm-backend/src/emit.rs"]}
{"id": "C92", "title": "On WebAssembly, calling a function value runs the function it was made from", "statement": "A function used as a value, stored, passed on and called later runs exactly the function it was made from, with the given arguments, whatever other functions the module has, imports included, and wherever they are used as values. A module whose calls agree with the types of the called functions compiles, and what compiles is accepted by an engine.", "quantifier": "all modules of functions over integers and function references with branches, direct calls, tail calls, indirect calls and indirect tail calls, all functions, arguments, imported functions and call depths", "why_tests_cant": "A function value is a number into a table built by sorting names collected from the whole module, and each indirect call is checked at run time against a type whose index is assigned over the whole module; a slip shows only in the modules where the numbers happen to differ.", "anchors": ["crates/trunk-ir-wasm-backend/src/passes/func_to_wasm.rs::lower", "crates/trunk-ir-wasm-backend/src/emit/call_indirect_collection.rs::collect_call_indirect_types", "crates/trunk-ir-wasm-backend/src/emit/handlers/call_handlers.rs::handle_call_indirect", "crates/trunk-ir-wasm-backend/src/emit.rs::emit_wasm"]}
{"id": "C93", "title": "Hovering shows the type of what is under the cursor", "statement": "A hover request at a position inside an expression or pattern shows the type of the innermost expression or pattern there and highlights its range. Whatever is shown, the highlighted range contains the position and is the range of a piece of the program.", "quantifier": "all files with any nesting of expressions, patterns, statements, handlers and modules, and all byte offsets", "why_tests_cant": "The answer is picked by size among all ranges that contain the position, in an index that leaves out some nodes, adds nodes that are not in the text and lets nodes share ids; whether the right one wins depends on the whole nesting around the position.", "anchors": ["src/lsp/type_index.rs::AstTypeIndex", "src/lsp/type_index.rs::TypeCollector", "src/lsp/server.rs::hover", "crates/tribute-front/src/tdnr/resolver.rs::resolve_method_call", "crates/tribute-front/src/astgen/expressions.rs::lower_block"]}
{"id": "C94", "title": "Signature help shows the function being called and the current parameter", "statement": "With the cursor in argument i of the innermost call of a function of the file, a signature help request shows that function's signature with parameter i active.", "quantifier": "all files (concrete syntax trees with any nesting of calls), all positions, all sets of declared functions", "why_tests_cant": "The call and the argument are found by walking the syntax tree around the position and counting tokens; nesting, commas inside inner calls and the ends of arguments each have their own way to go wrong.", "anchors": ["src/lsp/server.rs::signature_help", "src/lsp/server.rs::find_enclosing_call", "src/lsp/server.rs::extract_call_info", "src/lsp/server.rs::count_commas_before", "src/lsp/completion_index.rs::find_signature"]}
{"id": "C95", "title": "A program in which the compiler finds an error is not compiled", "statement": "If the compiler finds an error in a program, the command line tool reports it, ends with a failure status and writes no program; if it finds none, it succeeds, and the program written does what the source says.", "quantifier": "all programs, all targets (native, wasm, check only), all sets of diagnostics of the front end, all behaviours of the functions called", "why_tests_cant": "Errors are found in several phases and accumulated on the side; whether each kind of error stops the compilation depends on where it is found and on which result the tool looks at.", "anchors": ["src/main.rs::compile_file", "src/pipeline.rs::compile_frontend_with_options", "src/pipeline.rs::compile_to_native_binary", "src/pipeline.rs::compile_to_wasm_binary", "src/diagnostics.rs::report_diagnostics", "crates/tribute-front/src/ast_to_ir/lower/expr.rs::lower_value_impl", "crates/tribute-front/src/ast_to_ir/lower/mod.rs::validate_nat_i31"]}
{"id": "C96", "title": "Error reports come in a fixed order and mark the text they are about", "statement": "The reports of a compilation are ordered by phase, place and text, whatever the order in which the errors were found; each underlines exactly the text at its span and shows that text's line.", "quantifier": "all lists of diagnostics and orders of discovery, all source texts and spans", "why_tests_cant": "Spans count bytes and the reporting library counts something else; tests are written in ASCII.", "anchors": ["src/diagnostics.rs::print_diagnostic", "src/diagnostics.rs::normalize_span", "src/pipeline.rs::compare_diagnostics"]}
{"id": "C97", "title": "String and byte-string literals have the bytes written", "statement": "Wherever a program has a string or byte-string literal, running the code compiled for it makes a string or byte string with exactly the bytes of the literal, on both targets, whatever other literals there are; equal literals share their data; no literal is cut silently.", "quantifier": "all modules of sources shorter than 4 GiB with any nesting of operations and literals, all placements of code and data in memory, all answers of the allocator", "why_tests_cant": "Literals are collected in one pass, numbered, deduplicated and looked up again in another; a wrong number or name shows only with particular combinations of literals and names.", "anchors": ["crates/tribute-passes/src/wasm/const_to_wasm.rs::analyze_consts", "crates/tribute-passes/src/wasm/lower.rs::append_data_ops", "crates/trunk-ir-wasm-backend/src/emit/handlers/misc_handlers.rs::handle_bytes_from_data", "crates/tribute-passes/src/native/const_to_native.rs::emit_bytes_alloc", "crates/tribute-passes/src/native/const_to_native.rs::analyze_consts", "crates/trunk-ir-cranelift-backend/src/function.rs::translate_op", "crates/trunk-ir-cranelift-backend/src/translate.rs::emit_module_impl"]}
{"id": "C98", "title": "A call runs the program's function of that name, and the program starts with its main", "statement": "Whatever names a program gives its functions, its compiled form starts with its main, runs the program's function of the name called wherever its source calls one, writes what its source writes, and initialises the runtime first on the native target.", "quantifier": "all programs of any number of functions of any names, with calls, branches and writes, all finished runs", "why_tests_cant": "The compiler adds functions and imports of its own to the program's and finds all of them by name; a clash appears only for particular names.", "anchors": ["crates/tribute-passes/src/native/entrypoint.rs::generate_native_entrypoint", "crates/tribute-passes/src/native/io.rs::ensure_runtime_declarations", "crates/tribute-passes/src/wasm/io.rs::lower", "crates/tribute-passes/src/wasm/lower.rs::build_start_function", "crates/trunk-ir-wasm-backend/src/emit.rs::collect_module_info", "crates/trunk-ir-cranelift-backend/src/translate.rs::emit_module_impl"]}
{"id": "C99", "title": "Dialect conversion follows its rules, leaves nothing illegal and leaves alone what is legal", "statement": "The legality of an operation is what the registered rules say by precedence, whatever order they were registered in; a conversion that succeeds leaves no illegal operation (no operation that is not legal, for a full conversion) outside operations marked recursively legal; one that fails names exactly the offending operations; patterns are applied until none applies; legal operations are not rewritten and recursively legal ones are not changed at all.", "quantifier": "all sets of rules, all pattern sets (functions from operations to rewrites), all operation trees of any depth, both scopes, any limit on rounds", "why_tests_cant": "The driver works on snapshots in rounds, nested regions first, with rules of five kinds that override each other; tests try a few rules and patterns on small modules.", "anchors": ["crates/trunk-ir/src/rewrite/conversion_target.rs::is_legal", "crates/trunk-ir/src/rewrite/conversion_target.rs::is_recursively_legal", "crates/trunk-ir/src/rewrite/conversion_target.rs::verify_mode", "crates/trunk-ir/src/rewrite/applicator.rs::apply_partial", "crates/trunk-ir/src/rewrite/applicator.rs::visit_block", "crates/trunk-ir/src/rewrite/rewriter.rs::apply_mutations", "crates/trunk-ir/src/walk.rs::walk_op"]}
{"id": "C100", "title": "What the IR validators report and accept", "statement": "The scope validator reports exactly the operands, in functions at any depth, that no region around the operation within its function defines; the use-chain validator reports exactly the uses that are not recorded and the recorded uses that are not there; the operation verifiers complain exactly about the operations that do not have the shape of their kind; the arity validator warns exactly of the direct calls with a wrong number of arguments. A module that is accepted reads only values that have been computed, in every function, and has each use recorded once.", "quantifier": "all modules (operation trees of any depth and width), all values, types and recorded use lists", "why_tests_cant": "The validators walk arbitrary nesting with sets of visible values; tests build a few small modules and check that one defect is found.", "anchors": ["crates/trunk-ir/src/validation.rs::validate_value_integrity", "crates/trunk-ir/src/validation.rs::check_operands_in_region", "crates/trunk-ir/src/validation.rs::validate_use_chains", "crates/trunk-ir/src/validation.rs::validate_operation_verifiers", "crates/trunk-ir/src/validation.rs::validate_call_arity", "crates/trunk-ir/src/validation.rs::validate_all"]}
{"id": "C101", "title": "The pass manager runs what was registered and blames the pass that broke the IR", "statement": "Passes run in the order they were registered, then nested managers in order, each on every operation of its kind; the IR changes only through passes; the verifier in force (the manager's own, or else the closest around it) is asked right after each pass; a run that succeeds had no failure and no complaint; an error names the pass that failed or that broke the IR, and nothing runs after it.", "quantifier": "all trees of managers, all passes (arbitrary functions on the IR, failing or not), all verifiers, all IRs", "why_tests_cant": "Passes may erase, add or retag the operations the manager is iterating over; tests run a few passes on modules with one or two functions.", "anchors": ["crates/trunk-ir/src/pass.rs::run_passes", "crates/trunk-ir/src/pass.rs::run_on_target_with", "crates/trunk-ir/src/pass.rs::collect_targets", "crates/trunk-ir/src/pass.rs::target_still_alive", "crates/trunk-ir/src/pass.rs::TypedNested", "crates/trunk-ir/src/context.rs::remove_op"]}
{"id": "C102", "title": "The last check before emission accepts exactly what is ready for the target", "statement": "A module is accepted if and only if every operation in it belongs to the target (indirect tail calls on WebAssembly name their exact signature), every type it mentions, in a signature, as a value, in an attribute, in an alias or inside another type, is one the target has in that kind of place, every function type has a result, the private carrier of control is not named anywhere, every signature is a type, every marked calling convention is known, functions in the general one return nothing and tail calls have no result. What an error says is so.", "quantifier": "all modules, however deeply nested, all interned types, both targets", "why_tests_cant": "Types refer to types and the check remembers what it has seen; tests try about fifteen modules with one defect each.", "anchors": ["crates/tribute-passes/src/backend_ready.rs::verify_tribute_backend_ready", "crates/tribute-passes/src/backend_ready.rs::verify_type", "crates/tribute-passes/src/backend_ready.rs::verify_operation", "crates/tribute-passes/src/backend_ready.rs::verify_abi", "crates/trunk-ir-cranelift-backend/src/validation.rs::validate_clif_ir", "crates/trunk-ir-wasm-backend/src/validation.rs::validate_wasm_ir", "crates/trunk-ir-wasm-backend/src/emit/helpers.rs::exact_return_call_indirect_signature"]}
{"id": "C103", "title": "What passes the last check has types the emitter can emit, and the other way round", "statement": "In an accepted module the emitter translates the signature of every function and every indirect call, on both targets, and on WebAssembly the type of every value; values of types the emitter has a translation for are accepted.", "quantifier": "all modules, all interned types, both targets, any numbering of the types of the module", "why_tests_cant": "The check and the two emitters have separate tables of types in three crates; tests do not run one against the other.", "anchors": ["crates/tribute-passes/src/backend_ready.rs::type_is_legal", "crates/trunk-ir-cranelift-backend/src/function.rs::translate_type", "crates/trunk-ir-cranelift-backend/src/function.rs::translate_signature", "crates/trunk-ir-wasm-backend/src/emit/helpers.rs::type_to_valtype", "crates/trunk-ir-wasm-backend/src/emit/helpers.rs::result_types"]}
{"id": "C104", "title": "Analyses shared by passes are computed when needed and fresh when invalidated as agreed", "statement": "In a phase of the pipeline, a request for an analysis of an operation never panics and is answered with the result computed at the first request since it was last invalidated, or from the current program if there is none; what is cached is exactly what was asked for and not invalidated since; if every change that matters to an analysis is followed by an invalidation covering it, requests are answered for the program as it is; an analysis is computed at most once more often than it was invalidated. The inliner does in each round what it would do with a call graph computed anew, and leaves the graph of the resulting program.", "quantifier": "all histories of edits, requests and invalidations, all analyses and targets, all programs", "why_tests_cant": "Staleness depends on the order of edits, requests and invalidations; tests try two or three calls.", "anchors": ["crates/trunk-ir/src/analysis.rs::AnalysisCache::get", "crates/trunk-ir/src/analysis.rs::AnalysisCache::get_cached", "crates/trunk-ir/src/analysis.rs::AnalysisCache::invalidate", "crates/trunk-ir/src/analysis.rs::AnalysisCache::invalidate_all", "crates/trunk-ir/src/analysis.rs::AnalysisCache::clear", "crates/trunk-ir/src/transforms/inline.rs::inline_functions_with_config"]}
{"id": "C105", "title": "Types of the run-time library become WebAssembly types everywhere and consistently", "statement": "After the normalisation for WebAssembly no operation has a result of a run-time type, every function has a signature of WebAssembly types with an entry block of these types, block arguments are normalised too, and nothing else changes: operations, operands, attributes and nesting are as before. Calls whose result has the type the called function returns, and indirect tail calls whose recorded signature has the types of their arguments, still have them. One run is enough.", "quantifier": "all well-formed modules: any nesting, any operations, any types", "why_tests_cant": "The pass applies five patterns with two tables of conversions to every operation; tests look at a function with one argument and at a call.", "anchors": ["crates/tribute-passes/src/wasm/normalize_primitive_types.rs::lower", "crates/tribute-passes/src/wasm/normalize_primitive_types.rs::NormalizeCallPattern", "crates/tribute-passes/src/wasm/normalize_primitive_types.rs::NormalizeOpResultPattern", "crates/trunk-ir/src/rewrite/signature_conversion.rs::rewrite_function_signature", "crates/tribute-passes/src/wasm/type_converter.rs::wasm_type_converter"]}
{"id": "C106", "title": "Intrinsics of the standard library become operations; functions of the program do not", "statement": "Calls of the list and input/output intrinsics of the standard library become the corresponding operations on the same values, however deeply nested and for every instance of the generic one; their declarations go and everything else stays. A function of the program's own is left alone whatever its name, unless it is declared as an intrinsic, and an instance the program declares itself is not the intrinsic. No reference to a function that is gone is left. Another run changes nothing.", "quantifier": "all modules: any nesting, any functions, names and operations", "why_tests_cant": "Which calls are affected depends on all names and declarations of the module; tests try one module per case.", "anchors": ["crates/tribute-passes/src/list_intrinsics.rs::LowerListIntrinsics", "crates/tribute-passes/src/list_intrinsics.rs::PrependCallPattern", "crates/tribute-passes/src/io_lowering.rs::LowerIoIntrinsics", "crates/tribute-passes/src/io_lowering.rs::IoDeclarationPattern"]}
{"id": "C107", "title": "Performing an operation of an ability is dispatching it through the evidence of the function", "statement": "In a function that receives evidence every operation of an ability, however deeply nested, becomes a dispatch through that evidence with the same ability, operation, continuation and payload, in the same order; the function returns what it returned, whatever the handlers do. A function that performs an operation in its body ends with the answer, converted to its own result type. Functions without evidence or without such operations stay as they are, and another run changes nothing.", "quantifier": "all functions (any nesting, both forms of operations), all handlers, all meanings of the other operations, all worlds", "why_tests_cant": "What handlers do is not known to the pass; tests look at the form of a few functions.", "anchors": ["crates/tribute-passes/src/lower_ability_perform.rs::lower_ability_perform", "crates/tribute-passes/src/lower_ability_perform.rs::LowerPerformPattern", "crates/tribute-passes/src/lower_ability_perform.rs::LowerCallPattern", "crates/tribute-passes/src/lower_ability_perform.rs::pack_payload", "crates/tribute-passes/src/lower_ability_perform.rs::pack_legacy_payload", "crates/tribute-passes/src/lower_ability_perform.rs::find_evidence_from_op"]}
{"id": "C108", "title": "Native functions and their callers agree on types", "statement": "Lowering functions and calls for the native target with any conversion of types keeps what the program does: the same calls of the same functions on the same values in the same order. If functions and calls agreed on types before, they agree afterwards: functions have the converted signature, direct calls pass and returns give the converted types, calls through values record exactly the converted types of what they pass. Such a module is lowered without error, nothing of the old dialect is left, and another run changes nothing.", "quantifier": "all modules of functions with blocks, all types, all conversions of types that are done after one step", "why_tests_cant": "Conversions change the types of values while other operations still mention them; tests use an empty conversion.", "anchors": ["crates/trunk-ir-cranelift-backend/src/passes/func_to_clif.rs::lower", "crates/trunk-ir-cranelift-backend/src/passes/func_to_clif.rs::FuncFuncPattern", "crates/trunk-ir-cranelift-backend/src/passes/func_to_clif.rs::FuncCallIndirectPattern", "crates/trunk-ir-cranelift-backend/src/passes/func_to_clif.rs::FuncTailCallIndirectPattern", "crates/trunk-ir-cranelift-backend/src/passes/cf_to_clif.rs::rebuild_op_as", "crates/trunk-ir/src/rewrite/applicator.rs::insert_conversion_casts"]}
{"id": "C109", "title": "Signature help shows different functions differently", "statement": "If signature help shows the same text for two functions, then they have the same name, the same parameters with the same types in the same order, the same declared effects and the same result type. The same holds for two types shown alike.", "quantifier": "all declarations of functions and all type annotations, nested to any depth", "why_tests_cant": "Whether a printed form is unambiguous depends on every nesting of tuples, functions and applications.", "anchors": ["src/lsp/completion_index.rs::print_type_annotation", "src/lsp/completion_index.rs::function_signatures", "src/lsp/pretty.rs::format_ast_signature"]}
{"id": "C110", "title": "Signature help shows the documentation of the function it shows", "statement": "The documentation shown with a function is what the documentation comments directly above its definition say, in order, one per line, without marks and surrounding white space; plain comments between them are passed over. Without such comments nothing is shown, and documentation is shown only for functions of the file.", "quantifier": "all files (trees of definitions, modules and comments nested to any depth), all texts of comments, all names", "why_tests_cant": "The function is searched for by name through the whole tree and the comments by walking backwards; each file has its own nesting and mixture of comments.", "anchors": ["src/lsp/server.rs::find_doc_comment", "src/lsp/server.rs::find_function_node", "src/lsp/server.rs::extract_doc_comment", "src/lsp/server.rs::signature_help"]}
{"id": "C111", "title": "Completion offers the names that begin with what was typed", "statement": "A completion request offers every name that can be used where the request is made and begins with what was typed, as what it is, every word of the language that does, and nothing else; each name once.", "quantifier": "all files, all prefixes", "why_tests_cant": "The offered names depend on every kind of declaration, on imports, on their order and on clashes of names.", "anchors": ["src/lsp/completion_index.rs::completion_items", "src/lsp/completion_index.rs::filter_completions", "src/lsp/completion_index.rs::complete_keywords", "src/lsp/server.rs::completion"]}
{"id": "C112", "title": "Symbols are equal exactly when their texts are", "statement": "However threads intern, look up, read and compare symbols at the same time: two symbols are equal exactly when their texts are, reading a symbol gives the text it was made from, comparing symbols compares their texts whatever the order of interning, a text is reported missing only if nobody was given a symbol for it before, the table is changed by one thread alone, and threads do not block each other for ever.", "quantifier": "all numbers of threads, all schedules of their steps, all texts and comparisons", "why_tests_cant": "Depends on how the steps of threads fall between looking a text up and adding it; a test sees few schedules.", "anchors": ["crates/trunk-ir/src/symbol.rs::Symbol", "crates/trunk-ir/src/symbol.rs::Symbol::get_or_else", "crates/trunk-ir/src/symbol.rs::Symbol::lookup", "crates/trunk-ir/src/symbol.rs::Symbol::with_str", "crates/trunk-ir/src/symbol.rs::Symbol::cmp"]}
{"id": "C113", "title": "Handler arms lose their continuation only if they do not need it", "statement": "The optimisation that runs handler arms without capturing a continuation is applied to an arm only if every run of the arm hands its continuation to nothing until, as the last thing, it resumes it exactly once and ends with what came back. Every arm that ends so and uses neither elsewhere gets it. Abilities, operations and order of the arms and everything the program does stay, and another run changes nothing.", "quantifier": "all operations with handler arms nested to any depth, all runs of what is in them", "why_tests_cant": "An arm may hide a use of its continuation at any depth; a missed one resumes twice or not at all.", "anchors": ["crates/tribute-passes/src/tail_resumptive.rs::is_tail_resumptive", "crates/tribute-passes/src/tail_resumptive.rs::SuspendToYieldPattern", "crates/tribute-passes/src/tail_resumptive.rs::convert_tail_resumptive"]}
{"id": "C114", "title": "A source file is accepted under any path and its module has its name", "statement": "The compiler accepts a source file whatever its path is, calls its module by the name of the file without the extension, and keeps files with different paths apart.", "quantifier": "all paths of source files, absolute and relative", "why_tests_cant": "Paths may contain any characters; tests use plain ones.", "anchors": ["crates/tribute-front/src/source_file.rs::path_to_uri", "crates/tribute-front/src/source_file.rs::SourceCst::from_path", "crates/tribute-front/src/astgen/mod.rs::derive_module_name_from_uri", "src/database.rs::input"]}
