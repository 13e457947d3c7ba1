# Formal model of Kroisse/tribute in Lean 4 — design

The model lives in `lean/Verif/`. Each area `X` has

* `X/Model.lean` — definitions, each citing the file and lines in `/repo` it models;
* `X/Proofs.lean` (optional) — helper lemmas;
* `X/Props.lean` — an independent specification, the property theorems, and beside
  each theorem an `example` showing that a concrete non-trivial case meets its hypotheses.

Names of property theorems start with the property id (`C01_…`). A theorem ending in
`_partial` proves less than the property; a theorem ending in `_violated` proves that the
property, as stated, is false of the code (a concrete witness), and is accompanied by a
`_partial` theorem with the missing hypothesis spelled out.

## Plan per property

| Id | Area | What is modelled | How it is proved |
|----|------|------------------|------------------|
| C01 | Evidence | sorted marker vector, binary search, extend; a heap of evidence handles | sortedness invariant over histories; refinement to "last installed on the chain" |
| C02 | Io | `write_all_with` over an arbitrary schedule of results | induction on the schedule |
| C03 | Io | `StdinBuffer::read_byte`, `read_line_with` over a list of OS read events | refinement to a chunk-free line splitter |
| C04 | Io | `line_result` | case analysis against an independent UTF-8 grammar |
| C05 | Bytes | heap of buffers and (buffer, offset, len) views | refinement to `List UInt8`; invariant over operation histories |
| C06 | Tls | per-thread `i32` counter | closed form of the counter after any schedule |
| C07 | Tls | interleaving semantics of `tls_init` | inductive invariant over all reachable states |
| C08 | IntText | `parse` on 32-bit `Int` (BitVec 32) | loop invariant relating accumulated value to numeral |
| C09 | IntText | `to_string` on ropes | strong induction on the quotient |
| C10 | Rope | cursors over ropes | refinement to list equality, measure for termination |
| C11 | Rope | ropes with cached 32-bit length | structural induction |
| C12 | Bytes | `Bytes.slice`, `Bytes.get` | case analysis |
| C13 | Layout | `compute_struct_layout` on u32 arithmetic abstracted to Nat | fold invariant |
| C14 | Layout | `compute_enum_layout` | fold invariant over variants |
| C15 | Dominance | DFS reachability and round-robin iteration | greatest fixpoint + termination measure |
| C16 | Arith | every `fold_*` function over i128 attributes | modular arithmetic against BitVec semantics |
| C17 | Dce | sweeps over a region tree | simulation |
| C18 | GlobalDce | module walk and BFS | invariant of BFS |
| C19 | CallGraph | Tarjan's algorithm | stack invariant |
| C20 | Inline | cloning, splicing, renaming and the pass, on an interpreter with arbitrary operations | simulation of environments; recursion bounded by fuel, both directions |
| C21 | Liveness | backward fixpoint | least fixpoint, path induction |
| C22 | RcOpt | block rewriting, heap with recursive release | counterexample + simulation under a no-release-between condition |
| C23 | RcInsert | insertion plan per block | counting invariant along paths |
| C24 | RcLower | atomic steps of retain/release | invariant over interleavings |
| C25 | Rtti | `RttiMap` | invariant over histories |
| C26 | Solver | unification with rows | preservation of solutions |
| C27 | Solver | occurs checks | acyclicity invariant; counterexample through rows |
| C28 | Solver | shared counter | monotonicity invariant |
| C29 | Subst | generalize/instantiate | structural induction |
| C30 | EffectRow | row operations | list/set lemmas |
| C31 | Solver | row unification | case analysis; counterexample with repeated abilities |
| C32 | Mangle | name mangling | unique readability of a prefix code |
| C33 | CallConv | convention lattice | fold = supremum |
| C34 | NameEnv | `ModuleEnv` as finite maps | histories |
| C35 | Exhaustive | exhaustiveness check vs. pattern semantics | counterexample with nested patterns; partial soundness |
| C36 | IrText | escape printer and parser | round-trip by induction |
| C37 | Literals | the two string-literal decoders | counterexample; agreement on a fragment |
| C38 | Literals | numeric literal parsing | positional-value spec |
| C39 | DataRegistry | registry | invariant over histories |
| C40 | LspPos | rope-based position conversion | induction over lines |
| C41 | Bytes | `get_or_panic` on both targets | counterexample; the in-range half by case analysis |
| C42 | Rtti | generated destructors and constructors on a byte-level machine | symbolic execution of the generated code, for all declarations |
| C43 | CallConv | positions of hidden parameters in `CallableAbi` | case analysis on conventions |
| C44 | NameEnv | `resolve_use_imports` over an arbitrary iteration order | counterexample; permutation invariance otherwise |
| C45 | LspPos | document store and change notifications | refinement to the editor's text, over histories |
| C46 | LspPos | the edit given to the incremental parser | list splitting |
| C47 | LspPos | `extract_completion_prefix` | longest-suffix characterisation |
| C48 | Literals | byte-string and rune literals | induction on the text |
| C49 | Mono | `extract_type_args`, redirection of uses | structural induction on types |
| C50 | Scheme | counters of the function checker, snapshots for `let` | monotonicity over histories; counterexample |
| C51 | Scheme | generalisation of `let` bindings | set of free variables of the environment |
| C52 | Case | code generated for `case` on a small evaluator | simulation of pattern semantics; counterexamples |
| C53 | Inline | the loop of the pass | calls of functions off every cycle weigh more than their bodies; total weight falls |
| C54 | Operators | the tables from source operators to Cranelift and WebAssembly instructions | case analysis on operators, for all bit vectors |
| C55 | Operators | `arith` lowering of both backends | case analysis on operations and types, for all values; counterexamples |
| C56 | ScfToCf | the lowering of if, loop and switch to branches | simulation of each lowering for every meaning of the other operations; renaming of results; induction over the pass |
| C57 | ScfToCf | the walk over blocks that grows while it runs | weight of the operations bounds depth and number of blocks; the rules are invariants of each step |
| C58 | IrStore | the storage of the IR with its use chains; histories of calls | invariant over all histories; the meaning of each edit of a chain |
| C59 | IrStore | tables of values, results and block arguments | invariant over all histories |
| C60 | IrStore | parent links and lists of operations, blocks and regions | invariant over all histories; acyclicity from finite nesting |
| C61 | IrStore | deep cloning with its mapping | cloning is a sequence of building steps that keep what existed; induction over nesting with a frame for copies; false for forward references |
| C62 | Scope | the resolver over expressions, patterns, statements, handlers, declarations | judgement with a list of binders in scope; the resolver is proved to follow it by induction over the tree |
| C63 | Scope | definition index of the language server | for locals by C62; witnesses for the rest |
| C64 | Scope | rename as edits of the index | simulation between the program and the edited one over all constructs; witnesses for what is false |
| C65 | ModEnv | collecting declarations into tables, with inline modules | frames of each declaration on the tables, induction over the tree of modules |
| C66 | ModEnv | the table of constructor types | identities of different declarations differ; witnesses for what is false |
| C67 | Normalize | the normaliser over expressions, statements, arms, handlers | denotations in an arbitrary lawful monad; induction with continuations that depend only on the locals in scope |
| C68 | Normalize | the same, and the compiler's check of the form | induction over the expression |
| C69 | Normalize | building of record expressions from their parts | monad laws; witness with a log for what is false |
| C70 | Closure | both passes over a first-order intermediate language with lambdas, indirect calls and tail calls | a simulation between runs whose closures differ in form, by induction over the depth of calls and the code; names by injectivity of the lifted names |
| C71 | Closure | the same | the number of lambdas falls in each turn; invariants of the loop |
| C72 | Effects | the lowering of normalised bodies to continuation-passing code, evidence resolution, answer dispatch, and an interpreter of the result; the meaning of handlers is a machine with an explicit context | simulation by strong induction over the steps of the machine; continuation closures represent contexts (`CtxRel`), the waiting frames of `handle` represent the handlers below |
| C73 | EffectTrack | the current effect row through both walks of the checker, merging, handlers, the row constraints given to the solver of area Solver, the checks of `main` and of annotations, declarations in source order | both walks only add to the row; what may escape is covered by the row (structural induction), handlers through the solver's soundness (C26); escapes by induction over the derivation; runs by an invariant of the machine of area Effects |
| C74 | WasmCf | the five patterns of `scf_to_wasm`, the assignment of locals, the emission of conditionals, blocks, loops, yields and branches; a semantics of both sides with arbitrary other operations; WebAssembly validation of structured instructions | a simulation relation between environments and locals, by structural induction with an inner induction over rounds, for every bound at once; the validator by structural induction; totality of emission by counting which values have locals |
| C75 | Typing | both walks of the checker over expressions and patterns, the state of the inference context, let generalisation, method lookup and deferred method calls, the check of a function and of a module; a ghost flag records where a connection between types is dropped; typing rules for a language with let polymorphism as the specification | erased types and assignments of erased types to variables; the assignments that satisfy the solver's bindings are exactly those that satisfy the constraints; structural induction over the inferring walk for every assignment |
| C76 | Run | the type checker of area Typing; as specification a big-step evaluator with an explicit outcome for going wrong, and typed values | types preserved and no wrong outcome by induction on the number of steps, for all parts of the evaluator at once; canonical forms of values; combined with C75 |
| C77 | Borrow | the search for borrowed parameters, with the visited set and the rounds in any order; as specification a machine that marks lent references | the search computes the largest admissible choice (fixpoint argument, count of borrowed parameters goes down); invariant of the machine for admissible choices |
| C78 | Borrow | entry modes of functions and contracts of calls | case analysis of both sides, for every parameter |
| C79 | TempBorrow | the analyses of temporaries and of parameters that are not counted, on top of the models of dominance (C15), liveness (C21) and insertion (C23) | the owner's liveness covers every use of what was loaded from it (dominance along every path), hence the ledger of C23 has a reference to it at every point from the load to the use; the conditions that C23 asks of the analyses are proved of them |
| C80 | ListLower | the lowering of list operations to nodes, on the function bodies and their meaning of C56; lists are specified as mathematical lists, nodes by their own laws | simulation in both directions for one `head`/`tail` at any depth (values of the function correspond to values of the lowered function under the replacement), induction over the observations; the patterns keep the meaning of every operation |
| C81 | Boxing | the three tables that resolve casts, the boxing operations, their code on both targets as instruction sequences over byte memory and over WebAssembly values | symbolic execution of the boxing sequence over any memory with a fresh block; bytes of a number and back by induction; 31 bit arithmetic; the tables by cases over types |
| C82 | Canon | bodies with nested conditionals and loops, the folds (integers from area Arith), the traversal with replaced values, the iterations | simulation of the two runs by mutual induction over operations, with an invariant relating each value to what it was replaced by; splicing by splitting the branch at its end |
| C83 | Canon | the same | a second traversal of the output makes the same decisions (induction, no hypothesis on bodies); no changes imply nothing foldable is left |
| C84 | Instances | the whole syntax of typed expressions, collecting, copying and redirecting in rounds; a machine for programs with closures, handlers and an outside | the machine commutes with forgetting types and renaming functions (mutual induction over syntax, values and stacks); an invariant of the rounds says that undoing the generated names gives back the source |
| C85 | Instances | the same, and the type arguments of uses from area Mono | invariants over the rounds about every reference of every function; matching a scheme against a type is sound and complete; a level of need per round |
| C86 | Instances | the same | after k rounds exactly the instances of the first k levels are known; counterexample programs of every length |
| C87 | Instances | the tables of recorded types | an invariant over the rounds: entries of copies are there and are those of the originals, old entries stay |
| C88 | WasmIo | the operations of the write helper, their emission as instructions, a machine for these instructions, and `fd_write` of the host with any answers | the emitted instructions are computed symbolically for every layout; straight-line parts by rewriting, the copy loop by induction on the bytes, the write loop by induction on the answers |
| C89 | Fields | the code of each operation on structs, enum values and references, run on the byte machine of Rtti, against plain objects with fields | simulation by induction on the sequence of operations; the invariant says where each object's count, index, tag and fields lie, using the layouts of C13 and C14 |
| C90 | WasmGc | lowering of `adt` operations to `wasm_gc` ones, assignment of type indices, collection of the type section, emission of the operations and of locals and signatures; against WebAssembly validation written from the standard | invariant of the collection (what a type index and a field are known to be only grows), then each operation's instructions are checked from a stack they leave unchanged |
| C91 | WasmGc | the emission of C90, run on a machine for the WasmGC instructions, against a machine for the operations on declared types whose objects carry the type they were built at | simulation by induction on the depth of calls and on the body; distinct declared types have distinct indices, and every inserted cast is to the index of the type the value has |
| C92 | WasmCall | the lowering of function references and calls, the function table and element segment, the registration of function types, the type section and the emitted call instructions, run on a stack machine with table lookups checked against types | simulation by induction on the depth of calls and on the code; invariants of the registry (each type at its index) and of the table (each reference's slot holds its function) |
| C93 | Hover | the typed syntax tree with ranges, what the front end does to method calls and to blocks without a value, the collection of entries, the stable sort and the choice of the shortest range | the collected entries are those of the source tree in text order (induction on the syntax); around a leaf every entry that contains the offset contains the leaf, and those collected before it are larger; stability of the sort |
| C94 | SigHelp | concrete syntax trees with kinds, fields and ranges, the descent to the offset, the walk up to a call, the fields of the call, the counting of commas, the lookup of the signature | the path to the offset contains the innermost call (induction on the descent); counting by induction on the argument list; for the negation, that every call on the path lies in the tree |
| C95 | Report | lowering of expressions with its diagnostics and its `None` results, the two functions that produce a binary with their single check for errors, the command line tool's outcome (status, output, reports) | simulation of sound expressions by mutual induction over expressions, arguments, fields and statements, for every behaviour of the called functions; the negations by computing the lowering of a family of programs |
| C96 | Report | `compare_diagnostics`, the sort, label ranges as the reporting library reads them | insertion sort gives a sorted permutation, and sorted permutations agree on keys; bytes and characters of a prefix agree exactly if it is ASCII |
| C97 | Const | the analyses of literals of both targets, the lowering of literals, the instructions and data segments emitted, a stack machine and a byte memory machine, names resolved as the backends do | invariant of the collectors by induction over the walk (numbers are positions, contents are distinct, names are injective in numbers); the code of a literal executed symbolically; mutual induction over nested operations |
| C98 | Names | the functions and imports the compiler adds on each target, the renaming of `main`, the function maps of the two emitters, signature checks, and runs of source and target as traces | the function map resolves every name of the program to its function when names are distinct; forward and backward simulation by induction over runs |
| C99 | Convert | legality rules and their registration, verification, the driver of rewrite patterns with arbitrary patterns | registration keeps exactly the rules (invariant); the first deciding level is unique; mutual induction over operation trees for verification and for a round; induction over rounds |
| C100 | Validate | the four validators over trees of operations, with values, types and recorded uses | mutual induction over trees: each walk reports what lies on a path; case analysis for shapes; induction over insertions for signatures |
| C101 | PassMgr | the pass manager with arbitrary passes and verifiers, nested managers, the events of a run | mutual induction over managers with an invariant of the events that is kept by sequencing; induction over events for blame |
| C102 | BackendReady | the check with its visited set over interned types, the two target validators | each step is shown to establish three things (what it visited, what holds, why it failed) that compose; reachable types by closure of the visited set; induction on the index of a type |
| C103 | BackendReady | the translation of types and signatures by both emitters | from C102: the types of a signature are value types, by cases over the tables |
| C104 | Analyses | the cache as a map from analysis and target to typed values, histories of a phase, the loop of the inliner | the specification speaks of the history only; reverse induction over it gives the content of the cache; induction over rounds |
| C105 | PrimNorm | trees of operations with blocks, the two tables, the five patterns, the rounds of the applicator | the specification has the tables as relations and compares the lists of all operations before and after position by position; mutual induction over the tree; idempotence of the visit gives the fixed point |
| C106 | PreludeOps | trees of operations, the collection of declarations, both pairs of patterns, the rounds of the applicator | the specification says which calls mean the intrinsic and relates trees inductively; mutual induction over the tree; consequences for references by induction over the relation |
| C107 | Perform | both patterns, the packing of payloads, the search for evidence, the return after a dispatch in the body, erasing what follows | an interpreter with arbitrary handlers, operations and world, before and after; simulation between environments that agree on old values, by mutual induction over operations and blocks |
| C108 | NativeCall | all patterns of functions and calls, the conversion of block arguments and the insertion of casts by the applicator, both layouts of function types | behaviour as a trace in which casts stand for what they cast; agreement of types before and after; states of types ordered by an extension relation under which converted types stay; induction over operations, blocks and functions |
| C109 | Display | the printer of type annotations and of signatures, character by character | unique readability: if two printed types followed by a closing character or a comma agree as text, the types and the rests agree; mutual induction over types and lists of types |
| C110 | DocHelp | the search for a function by name through the syntax tree, the walk back over comments, and the removal of marks and white space | relations for what a comment says and for where a name is defined; induction over trees for the search and over the run of comments for the walk |
| C111 | Complete | the items made from declarations, the keywords, the filter by prefix | relations for what a declaration declares or imports; induction over the declarations for membership and for the list of names |
| C112 | Intern | the interner with its lock as a transition system of threads: taking the upgradable lock, looking up, upgrading, adding, and queries under read locks | invariant over all reachable states: no text twice in the table, all recorded answers right for it, at most one owner of the upgradable lock, no readers besides a writer |
| C113 | TailResume | the analysis by counting uses and looking at the last two operations, the conversion at any depth | runs as traces in which what is inside an operation runs any number of times; a value without uses is in no event; induction over operations and over runs |
| C114 | SourcePath | the URI made from a path, the grammar of URIs it has to satisfy, the name taken from it | lists of characters; splitting at slashes and at the last dot; violations by evaluation of concrete paths |

## Areas: what is modelled and what is not

The comment at the head of each `Model.lean` lists the simplifications of that area; this is the overview.

| Area | Modelled | Not modelled |
|------|----------|--------------|
| Evidence | `tribute-runtime/src/lib.rs` evidence functions | freeing (the code never frees) |
| Io | stdin/stdout functions of the runtime over arbitrary OS results | the OS itself, allocation of descriptors |
| Bytes | byte primitives, `Bytes` module of the prelude, their native and wasm lowering | out-of-memory aborts, reference counts of buffers |
| Tls | `tls.rs` (POSIX), interleaving of atomic steps | weak memory, thread exit, the Windows backend |
| Rope, IntText | `String` and `Int` text functions of the prelude | the compilation of the prelude |
| Layout | `adt_layout.rs` | decoding of attribute lists |
| Dominance | `dominance.rs` | regions inside operations |
| Arith | folding in `dialect/arith.rs` | floats, `core_int_width` |
| Dce, GlobalDce, CallGraph | `transforms/{dce,global_dce,call_graph}.rs` | arena bookkeeping beyond use counts |
| Inline | `transforms/inline.rs`, `ir_mapping.rs`, cloning in `context.rs` | nested regions of several blocks, use chains, types, locations |
| Operators | `intrinsic_to_arith.rs`, the intrinsic shortcut of `logical.rs`, `arith_to_clif.rs`, `arith_to_wasm.rs`, condition codes | `core.ptr` arithmetic, encoding of instructions |
| ScfToCf | `transforms/scf_to_cf.rs`, `split_block` and `inline_region_blocks` of `rewrite/helpers.rs` | types, locations, regions of other operations |
| IrStore | `trunk-ir/src/context.rs` (operations, values, blocks, regions, use chains, cloning), `ir_mapping.rs`, the walk of `walk.rs` | interners, type aliases, diagnostics, attributes, `op_mut`, `block_mut`, `region_mut` |
| Scope | `tribute-front/src/resolve/resolver.rs` 252-835, `src/lsp/definition_index.rs`, rename of `src/lsp/server.rs` | type annotations, rewriting of method calls, shifting of spans, the prelude |
| ModEnv | `tribute-front/src/resolve/mod.rs` 114-308, `resolve/env.rs`, registration of constructors in `typeck/checker/collect.rs` | types of fields, names with `::` as members, `resolve_use_imports` (see NameEnv) |
| Normalize | `tribute-front/src/ast_to_ir/normalize.rs`, record expressions of `astgen/expressions.rs` | node identities and types; the upper bound of the counter of locals |
| Closure | `tribute-passes/src/lower_closure_lambda.rs`, `tribute-passes/src/closure_lower.rs` | types other than those of evidence and environment (casts are the identity on values); loops and blocks of several branches, which come later; the attributes that carry no meaning at run time |
| Effects | `tribute-front/src/ast_to_ir/lower/{expr,handle,control,lambda,mod}.rs` (the route of the production pipeline), `tribute-passes/src/resolve_evidence.rs`, `lower_handle_dispatch.rs`, `native/evidence.rs` (dispatch) | casts, patterns, packing of one argument, hashes of operation names, `tribute_control_to_cps` (not in the pipeline), functions of the Direct and TailResume conventions other than `main`, closures of the TailResume convention, the tail-resumptive optimisation |
| EffectTrack | `typeck/func_context.rs` `merge_effect`, `typeck/checker/expr.rs` (effect rows in `check_expr_with_ctx`, `infer_expr_type_with_ctx`, `convert_expr_kind_with_ctx`, `infer_call_with_ctx`, `remove_handled_effects`), `typeck/checker/func_check.rs` 77-350, `typeck/checker/mod.rs` 213-232 | types and type constraints (any may be added), lambdas and function values, abilities with type arguments, deferred methods, the row variable drawn for the continuation type of one-argument calls |
| WasmCf | `trunk-ir-wasm-backend/src/passes/scf_to_wasm.rs`, `emit.rs` 710-1132 (locals, nesting, regions, results), `emit/handlers/control_flow_handlers.rs` | conversion of types, subtyping of references in validation (types must be equal), handlers of single instructions, `scf.switch` (refused by the backend) |
| Typing | `tribute-front/src/typeck/checker/expr.rs` 107-2170, `checker/func_check.rs` 77-640, `checker/mod.rs` 213-232, `func_context.rs` 100-570, `context.rs` 55-258 | records and struct fields, abilities, `handle` and `resume`, guards, variant patterns with a wrong number of fields, diagnostics about effects (C73), the second chance of unresolved method calls in `tdnr/resolver.rs` |
| Run | nothing of its own: the theorems are about the type checker of area Typing; the evaluator is a specification of what programs do | abilities, records, guards, `extern` functions that call back |
| Borrow | `ownership_summary.rs`: `compute_and_attach`, `collect_call_contracts`, `value_is_borrowed`, `classify_borrowed_use` and what they call | attributes and their second reading in `validated_for_clif`; the set of recursive functions is a parameter |
| TempBorrow | `rc_insertion.rs`: `insert_rc_in_function` (what it puts together), `analyze_temporary_borrows`, `analyze_borrowed_parameters` and what they call (776-1170) | writes to the field that was loaded from: a reference read from a field is taken to be alive as long as the object is. Conditions on bodies (`Plain`): every value defined once and before its use, no jump back to the entry block, no owned reference passed with a jump that is still used afterwards |
| ListLower | `native/list.rs` (all but the attributes of the node type), `split_block` | `list_intrinsics.rs`; layout and counting of nodes (C13, C23); allocation is taken not to fail |
| Boxing | `type_converter.rs` (all three) for primitive types, `tribute_rt_to_clif.rs`, `tribute_rt_to_wasm.rs`, `resolve_unrealized_casts.rs` for one cast | casts between reference types; casts inside nested types; the no-op for operands that are numbers already; where the front end puts casts |
| Canon | `canonicalize.rs`, `applicator.rs` 188-345 for this pass, `fold_if`, `fold_unrealized_conversion_cast` | `scf.switch`; bodies of several blocks; integer folds at types that are not `core.iN`; the dead code elimination after it (area Dce) |
| Instances | `monomorphize/{mod,collect,specialize,rewrite}.rs` for functions | copies of structs and enums and the renaming of types; the tables for handlers, operations, lambdas and exhaustive cases; annotations; methods (resolved before). The hash of type arguments is a parameter. Function names are assumed to be unique (the first of several is taken) |
| WasmIo | `wasm/io.rs` (the layout and `__tribute_wasi_write`), `emit.rs` and `control_flow_handlers.rs` for the operations used there | the passes between building the helper and emitting it, which leave it alone; types and alignment; the lowering of `tribute_io.write` to a call. Integers are numbers below 2^32; WASI is modelled as far as the helper uses it (one buffer, descriptor 1) |
| Fields | `adt_to_clif.rs` (all patterns), constructions of `adt_rc_header.rs` with operands of any type, record expressions with a base in `expr.rs` | control flow between the operations; arrays and constants; reference counting and freeing; the frontend's other uses of these operations |
| WasmGc | `adt_to_wasm.rs`, `wasm_gc_to_wasm.rs`, `gc_types.rs`, the collection of types and the emission of operations on structs and references in the WebAssembly backend | closures, arrays, strings, floats, control flow, imports and exports; the frontend's choice of types; the conversion of signatures (its results are the modelled input) |
| WasmCall | func_to_wasm.rs (references, calls, table), call_indirect_collection.rs, call_handlers.rs, the parts of emit.rs and helpers.rs that build the type, table and element sections and function bodies | numbering of locals (WasmGc), loops, values other than 32-bit integers and function references, `core.func` value types, `wasm.if` with results |
| Hover | type_index.rs (build, collect, type_at), the part of server.rs that uses it, resolve_method_call, the value of blocks in astgen | node ids (every node carries its range), printing of types, built-in abilities, conversion of positions (C40) |
| SigHelp | signature_help, find_enclosing_call, extract_call_info, count_commas_before, find_signature | the grammar (that calls have no field called arguments is taken from the comments and code of astgen/expressions.rs), tree-sitter's `descendant_for_byte_range` as documented, doc comments, formatting |
| Report | compile_file without --dump-ir, report_diagnostics, print_diagnostic, compile_frontend_with_options, compile_to_native_binary, compile_to_wasm_binary, compile_with_diagnostics, compare_diagnostics, lower_value_impl on literals, variables, calls, blocks and records | the backends (a parameter), other expressions, base records, arity diagnostics, the layout of a report; ariadne 0.6 is taken to count characters unless configured otherwise, as its documentation says |
| Const | `const_to_wasm.rs`, `const_to_native.rs`, `append_data_ops`, `handle_bytes_from_data`, `symbol_addr` and calls by name in the Cranelift backend | construction of `String::Leaf` (C89, C91); result types; passes between analysis and lowering on WebAssembly; placement of data by the linker is a hypothesis (`Loaded`) |
| Names | `entrypoint.rs`, declarations and write lowering of `native/io.rs` and `wasm/io.rs`, `_start` and `fd_write` of `wasm/lower.rs`, the function maps of both emitters | values and arguments other than the text written; reading lines, `__tribute_dealloc`, sanitizer; traces of runs that do not finish; removal of unused functions |
| Convert | `rewrite/conversion_target.rs`, `rewrite/applicator.rs`, `rewrite/rewriter.rs`, `walk.rs` | automatic type conversion and casts; values and their uses; patterns that change the program other than through their rewriter |
| Validate | `validation.rs` | wording and order of reports; when the pipeline runs the validators (debug builds only, except arity) |
| PassMgr | `pass.rs` | instrumentation; which passes the pipeline registers; what passes do (other properties) |
| BackendReady | `tribute-passes/backend_ready.rs`, both `validation.rs`, `translate_type`, `translate_signature`, `type_to_valtype` | error texts; regions of a module beyond its body; how type indices are assigned |
| Analyses | `trunk-ir/analysis.rs`, the loop of `transforms/inline.rs` | sharing of results by reference count; what a round of inlining does (C20, C53) |
| PrimNorm | `wasm/normalize_primitive_types.rs`, `rewrite/signature_conversion.rs`, the table of `wasm/type_converter.rs` | materialisation of casts; which region a block belongs to; the panic on an indirect call without operands; attributes of function types are one number |
| PreludeOps | `list_intrinsics.rs`, `io_lowering.rs` | types of values are a parameter (the passes create none); block arguments; attributes other than symbols, types and `abi` are one number |
| Perform | `lower_ability_perform.rs` | functions have one block and regions are two-way choices; casts do not change values; the dispatch keeps the number of the result it replaces; one round of the applicator (a second one finds nothing, `C107_again`) |
| NativeCall | `func_to_clif.rs` (phase 2), automatic type conversion of `applicator.rs`, `rebuild_op_as` of `cf_to_clif.rs` | calls have one result; other operations have no regions; adaptation of closure structs (phase 1); one round of the applicator (a second one finds nothing, `C108_again`) |
| Display | `print_type_annotation` and the text of `function_signatures` in `completion_index.rs`, the label of `format_ast_signature` in `pretty.rs` | named types are paths of one part; constructors of applications are paths; documentation and the active parameter |
| DocHelp | `find_doc_comment`, `find_function_node`, `extract_doc_comment` of `server.rs` | the parser that builds the tree (a separate crate, not in the repository); comments begin and end with their marks in the specification; which characters are white space is a parameter |
| Complete | `completion_items`, `filter_completions`, `complete_keywords` of `completion_index.rs`, `completion` of `server.rs` | details of items; the prefix (C47); how declarations come from text |
| Intern | `symbol.rs` up to `with_str` | the lock (`parking_lot`, by its contract) and the interner (`lasso`, as a list of texts without limit); fairness of the lock; interning inside a closure given to `with_str`; hashing; block identifiers |
| TailResume | `tail_resumptive.rs` | bodies of arms have one block; regions of other operations are one list; what later passes make of converted arms |
| SourcePath | `path_to_uri` of `source_file.rs`, `derive_module_name_from_uri` of `astgen/mod.rs` | `fluent_uri` by RFC 3986, `Path::file_stem` by its documentation; paths that are not Unicode |
| Live, RcInsert, RcPair, RcLower | `native/rc_insertion.rs` (liveness, insertion plan), `rc_optimization.rs`, `rc_lowering.rs` | borrow analysis and ownership summaries (arbitrary inputs with stated conditions), allocation sizes of releases, weak memory |
| Rtti | `rtti.rs`, `adt_rc_header.rs`, dispatch of destructors, dealloc | code generation of cranelift |
| EffectRow, Solver, Scheme, Types | `typeck/{effect_row,solver,subst}.rs`, let generalisation, fresh variables | constraint generation from expressions, method resolution, diagnostics |
| Mono | `mangle.rs`, `extract_type_args`, rewriting of uses | cloning of function bodies, the 64-bit node hash |
| CallConv | conventions, `CallableAbi`, the table of requirements | use of conventions in lowering |
| NameEnv | module environments, use-imports, scope stack | resolution of method names, diagnostics |
| Case | exhaustiveness check, both lowerings of `case` | guards' bodies and arms are opaque |
| Literals | literal decoding in expressions and patterns, range checks | the tree-sitter grammar (not in the repository) |
| IrText | printing and parsing of attributes and types | operations, regions, modules |
| DataReg | wasm data registry | emission of the data section |
| LspPos | positions, document changes, completion prefix | the other requests; `ropey` is modelled from its documentation |

Not modelled at all: the tree-sitter grammar and the AST construction beyond literals, constraint generation,
closure conversion and the CPS transformation of handlers, the Cranelift and WebAssembly encoders, the CLI.

## Properties that are false of the code

Each has a `_violated` theorem with a concrete witness, and a `_partial` theorem with the condition under which it
holds.

* C02: after a failed write of the text, `print_line` still writes the newline.
* C05: the length primitive truncates lengths of 2^32 and more.
* C12: on the native target `Bytes.get` sign-extends bytes 128-255. C41: `get_or_panic` has no bounds check.
* C16: signed division and remainder of constants out of range of their type fold wrongly.
* C17 (note): a dead division by zero is removed, so the trap is lost. C18: the non-recursive mode removes functions
  called from nested modules (the compiler does not use it).
* C22: a retain/release pair is taken out although a release in between frees the object.
* C23: a value used after one side of a branch only leaks on the other; a value passed to a block and still used under
  its old name is released twice; an argument of a tail call without a contract is released before the call.
* C26, C27, C31: rows that list an ability twice, a pure row on the left, lost row bindings, cycles through a row.
* C28, C50: variables of another solver, and row variables invented while a `let` is generalised, are not reserved.
* C30: removing an effect removes only its first occurrence.
* C32, C49: different type arguments can give the same name; an effect-only parameter is never found.
* C20: a callee that returns from within a region, and also ends in a return, is inlined; its inner return then leaves
  the caller.
* C35, C52: nested patterns are accepted as exhaustive and compiled wrongly; uncovered values run the last arm; float
  patterns panic.
* C36: aliases starting with a digit, dialects starting with a keyword, and infinities do not read back.
* C37: `"\xff"` crashes the compiler; three kinds of literal differ between expressions and patterns.
* C40, C45, C46: Unicode line breaks and carriage returns are counted differently from the protocol.
* C42: erased fields, function payloads, a field named `func_ptr`, and untyped objects are not released properly.
* C44: the meaning of a use-import depends on hash order.
* C54, C55: `<=`, `>` and `>=` on `Nat` cannot be compiled to WebAssembly; conversions of `nat` are signed there and
  unsigned natively.
* C61: a clone of a region in which a block uses a value of a block listed later refers to the original value.
* C63: the definition of a function or type name is the first definition of that name in the file, which may be a parameter; a variant's name is never found.
* C64: renaming a parameter with an annotation drops the annotation, renaming a function replaces its whole declaration, and a new name that is taken is accepted and captures.
* C66: two enums of a module with a variant of the same name, or a variant named like a struct, share the identity of the constructor: `A::X` has the type of `B::X`.
* C69: a record expression with a field before the spread, `P { x: f(), ..g() }`, evaluates the spread first.
* C70: a function `__clam_0` in a module `f` has the name given to the first lambda of a function `f`; calls of the closure run it instead.
* C72: (1) an arm's own operation goes to a handler inside the arm's `handle`, because dispatch passes the performer's evidence; (2) after a `handle` completes, what follows still uses the extended evidence; (3) `resume` in an arm gives the body's value, and the `do` arm runs on the arm's result; (4) an operation without an arm in the innermost handler of its ability runs that handler's last arm (the type checker asks for no complete set of arms); (5) `resolve_evidence` writes the evidence over the environment operand of calls of `Direct` closures; (6) `resume` in a closure that runs under another `handle` (the state-passing idiom) reads a `Normal` answer as `Escape`: a trap in WebAssembly, a stray read in native code.
* C73: effects are lost by (1) a call of an unannotated function declared later; (2) a handler that does not handle everything, where the row before it is pure (the solver accepts a pure row on the left of any open row with effects); (3) operands of `&&`/`||`, arguments of `resume` and nested handlers inside a handled body; (4) method calls; (5) functions with an open annotation; (6) the merge of two rows with different tails; (7) a handler as the value of a `let`, which is checked from the pure row.
* C74: branch depths are fixed (`continue` 1, `break` 2) instead of counted, so they are right only under exactly one conditional; the block type of a conditional is taken from its first branch, so a result given only by the second is lost; the result of a loop whose body ends with a conditional is read from the nil result of that conditional, which is not valid.
* C75: accepted although they cannot be typed: `fn f() -> Int { true && false }` (`&&` falls into the last case of the inferring walk); `fn g(o: Option(Int)) -> Bool { o.unwrap() }` (the receiver is not unified with the parameter); `x.add()` without its argument; `case pair() { #(a, b) -> a }` (variables of a tuple pattern are free when the type of the scrutinee is still a variable); a variable at two types in the two walks; a function used before its definition (its collected scheme has a separate variable for every missing annotation, and nothing compares it with the final one); `let inc = fn(x) { x + 1 }` followed by `inc(true)` (generalised before the operator is resolved).
* C76: `fn f() -> fn(Int) -> Int { true && false }` with `fn main() -> Int { f()(1) }` is accepted and calls a Boolean; `fn g() -> fn(Int) -> Int { k(1) }` before `fn k(x) { x }` is accepted and `g()(2)` calls a number.
* C78: a call by reference that is not a tail call never has a contract (`if !is_tail { continue; }`), but a function of CPS convention with an empty result consumes its parameters, so the reference is given back once too often. Not reachable by the route in use today, which makes no such functions.
* C80: `lower_observations` notes down the list operand of every `list.head` and `list.tail` before it lowers any. If an operand is the result of another one that stands later in the text, lowering the latter first removes it and replaces its uses, but not the one noted down. `C80_violated` has a function of three blocks in which every definition dominates its uses.
* C81: on WebAssembly integers and naturals are boxed as `i31ref`, which keeps 31 of the 32 bits. `2^29 + 2^29` passed through a type variable or a continuation comes back as `-2^30`; naturals from 2^30 to 3·2^30 - 1 are changed as well, and since the target type `nat` is converted to `i32` before the table is asked, the unsigned unboxing meant for naturals is never used. `C81_violated`, `C81_wasm_exact`.
* C83: `const_int_value` only sees `Attribute::Int`, and the front end writes every truth value as `Attribute::Bool`. So `if True { a } else { b }`, and every pattern check that always succeeds, keeps its dead branch: branch folding never happens in a compiled program. Besides, `and` of two constants 1 of type `i1` folds to -1, which `fold_if` rejects as malformed. `C83_violated`.
* C84: a generic `extern` function used at a concrete type is redirected to a generated name, but no declaration of that name is made, so nothing is linked to it. `C84_extern_violated`.
* C85: names of instances leave out effect rows, so the copies for `fn(Int) -> Int` and `fn(Int) ->{A} Int` are two declarations of one name. `C85_effects_violated`.
* C86: one round finds one more level of instances, and after 64 rounds an assertion fails: a chain of 64 generic functions calling each other makes the compiler panic, and so does polymorphic recursion, which the type checker accepts. `C86_violated`, `C86_growing_violated`.
* C88: the write helper gives up at the first error of the host (or a call that takes nothing) and returns normally; `print` has no result, so the program cannot tell. `C88_violated`. (The native runtime does the same, see C02.)
* C89: a record expression with a base reads every copied field with the type `tribute_rt.anyref`, and `adt.struct_get` loads with its result type: eight bytes, whatever the field's type. The construction stores the eight bytes again. `Point { x: 100, ..p }` with two `Int` fields writes four bytes past the end of the new object. `C89_update_violated`.
* C90: three ways a program that type checks becomes a module that validation rejects. The arguments of an ability operation with two or more arguments are packed by a construction typed `anyref`, after which every `anyref` of the module is declared as a reference to that tuple (`C90_erasedConstruction_violated`). The getter of a record field takes `structref`, after which every `structref` is declared as a reference to that record (`C90_fieldAccessor_violated`). A tuple captured by a closure is stored in a `structref` field and read into a local of the tuple's type without a cast (`C90_capturedTuple_violated`).
* C92: `func_to_wasm` gives every indirect call the placeholder attribute `type_idx = 0`, and the emitter uses that attribute instead of the index it has just looked up. Type 0 is the predefined struct of boxed floats, so every module with an indirect call that is not a tail call (every call of a closure) is rejected by WebAssembly engines. Also shown: a reference to a symbol without a function shifts the slots of the references after it, so they run other functions.
* C93: a resolved method call or operator becomes a call of a variable that reuses the id of the whole expression, so hovering the `+` of `1 + 2` highlights the expression and shows `fn(Nat, Nat) -> Nat`. A block that ends in a `let` gets a Nil value with the range of that `let`, so hovering the name bound by it shows Nil.
* C94: signature help asks each call for its field `arguments`; the grammar has none (astgen/expressions.rs 220 and 241 say so and find the argument list by kind), so every request is answered with nothing.
* C95: only the diagnostics of parsing to type-directed name resolution are looked at (pipeline.rs 521). Errors found while lowering (literals outside 31 bits, unknown, duplicate or missing record fields, ability operations used as values) are accumulated and the failing expression is dropped; `tribute compile --target native` then prints success and the binary lacks the statement. With `--target none`, a warning alone gives exit status 1.
* C96: `print_diagnostic` passes byte offsets to ariadne without `IndexType::Byte`; after any non-ASCII character the marks, the column and possibly the line are wrong.
* C97: on the native target, `clif.symbol_addr` looks for a function of the name first (function.rs 512-514) and the data of literals is called `__tribute_rodata_0`, `__tribute_rodata_1`, …; a program with a function of that name (a legal identifier; its linker name is mangled, so nothing is reported) gets its machine code as the text of the literal.
* C98: nothing keeps a program from using the names the compiler needs. On WebAssembly a function `fd_write(Int, Int, Int, Int) -> Int` replaces the import of that name in the function map (emit.rs 678-686), so everything printed goes to it; a function `_start` is shadowed by the generated one, and calling it starts `main` again. On the native target a function `__tribute_init` replaces the initialisation of the runtime (entrypoint.rs 119-122), and a function `_tribute_main` makes the compiler panic (entrypoint.rs 85-91).
* C99: the driver stops after ten rounds (applicator.rs 134) and neither it nor its callers make that an error, so a conversion can succeed while a pattern still applies. No pattern set of the compiler is shown to need that many.
* C100: accepted modules may read a value before it is computed, since all of a region's values are visible in all of it; `clif.func` is not checked for scope; use chains are compared as sets; arity looks only at functions directly in the module.
* C101: `TypedNested::run` skips stale targets by kind only, but an erased operation keeps its kind (`remove_op` leaves the slot), so passes run on erased functions; operations added by a pass are not visited by the manager that is running; after a pass that erases its own operation the verifier is not asked, so the damage is found after a later pass or not at all.
* C103: the WebAssembly emitter has values of type reference to an array of bytes (texts are made of them); `target_value_type` rejects `core.ref`. No production code calls `verify_tribute_backend_ready` yet (only the two target validators run), so no program fails because of it.
* C105: the normalisation for WebAssembly uses two tables: signatures lose `core.i1`, results of calls do not, so a call of a function returning `core.i1` no longer has the type the function returns. A `func.call` or `func.call_indirect` with a converted result is rebuilt without its attributes (calling convention, recorded signature). Arguments of blocks other than entry blocks keep run-time types although the documentation lists them as normalised. The signature recorded with an indirect tail call is not converted although the types of its arguments are; `func_to_wasm` requires them to be equal.
* C106: the lowering of input and output intrinsics goes by name alone: a function of the program's own called `std::io::__tribute_io_write` or `…read_line` is dropped and its calls hijacked (the list intrinsic is only recognised if declared as such). Both passes drop the declaration even if a reference to it remains: the function used as a value, or a call with another number of arguments.
* C108: `func.tail_call_indirect` keeps the recorded signature of before the conversion while its operands and the functions it may go to are converted. The pass is right only as long as the recorded signature mentions no type the conversion changes; nothing in the pass checks that, and whether earlier passes guarantee it is not modelled.
* C109: signature help drops the effects of function types: `f: (Int) ->{State} Int` and `f: (Int) -> Int` are shown alike; so are `fn f() ->{} Int` and `fn f() -> Int`, although the first is declared pure and the second has its effects inferred.
* C110: the documentation is searched for through the whole file in order of the text, the signature only among top-level functions. With `mod m { /// inner  fn f() ... }` before a top-level `fn f()`, signature help for `f` shows the signature of the one and the documentation of the other.
* C111: completion offers no names of modules, no imported names but `Io`, and neither `extern` nor `op`. `use std::io::Io` before `ability Io {}` offers `Io` twice, after it once: only the import looks for a name already there.
* C114: `path_to_uri` puts the path into a URI without escaping and unwraps the parser's answer: `tribute compile my\ file.trb` panics, as does any path with a letter outside ASCII. `b#c.trb` becomes module `b`.

## Trusted base

* Lean 4.33.0's kernel.
* Axioms: at most `propext`, `Classical.choice`, `Quot.sound` for every theorem listed in `MANIFEST.json` (checked with
  `#print axioms`); no axioms of our own, no `sorry`, `native_decide` or `bv_decide`.
* The reading of the Rust/Tribute source into the model. The code is not executed here. Definitions cite the lines they
  model; `seeded/LOG.jsonl` records edits of the model that imitate bugs, and the theorems that then fail.
* The meaning of the Cranelift and WebAssembly instructions in `Operators/Spec.lean`, from their manuals; floats are an
  abstract IEEE structure.
* Where the code depends on other software (the OS, `ropey`, `f64` formatting, the hash maps' iteration order), the model
  takes it as a parameter or as documented.
