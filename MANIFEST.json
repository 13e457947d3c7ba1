{
 "claims": [
  {
   "property": "C01",
   "status": "proved",
   "theorems": [
    "Verif.Evidence.C01_lookup_innermost",
    "Verif.Evidence.C01_valid_history_runs",
    "Verif.Evidence.C01_persistent"
   ],
   "note": ""
  },
  {
   "property": "C02",
   "status": "partial",
   "theorems": [
    "Verif.Io.C02_write_all_exact",
    "Verif.Io.C02_write_all_succeeds",
    "Verif.Io.C02_print_exact",
    "Verif.Io.C02_print_line_partial",
    "Verif.Io.C02_print_line_violated"
   ],
   "note": "Proved in full for the write loop and for print without newline. For print_line the property is false of the code when the text write fails: the newline is still written (C02_print_line_violated); C02_print_line_partial covers the runs where the text write does not fail for good."
  },
  {
   "property": "C03",
   "status": "proved",
   "theorems": [
    "Verif.Io.C03_read_line_spec",
    "Verif.Io.C03_read_lines_of_file",
    "Verif.Io.C03_chunk_independence",
    "Verif.Io.C03_linesOf_sound"
   ],
   "note": ""
  },
  {
   "property": "C04",
   "status": "proved",
   "theorems": [
    "Verif.Io.C04_validation_exact",
    "Verif.Io.C04_line_is_utf8",
    "Verif.Io.C04_invalid_encoding_iff",
    "Verif.Io.C04_system_error_iff"
   ],
   "note": ""
  },
  {
   "property": "C05",
   "status": "proved",
   "theorems": [
    "Verif.Bytes.C05_values",
    "Verif.Bytes.C05_aborts",
    "Verif.Bytes.C05_range_equal",
    "Verif.Bytes.C05_len_partial",
    "Verif.Bytes.C05_len_violated"
   ],
   "note": "The length primitive is exact below 2^32 bytes (C05_len_partial) and truncates above (C05_len_violated); the property is stated for the primitives as 64-bit lengths."
  },
  {
   "property": "C06",
   "status": "proved",
   "theorems": [
    "Verif.Tls.C06_tags_are_counter",
    "Verif.Tls.C06_tags_fresh"
   ],
   "note": ""
  },
  {
   "property": "C07",
   "status": "proved",
   "theorems": [
    "Verif.Tls.C07_key_created_once",
    "Verif.Tls.C07_returned_sees_key",
    "Verif.Tls.C07_key_stable"
   ],
   "note": ""
  },
  {
   "property": "C08",
   "status": "proved",
   "theorems": [
    "Verif.IntText.C08_ok_iff",
    "Verif.IntText.C08_out_of_range_iff",
    "Verif.IntText.C08_invalid_iff",
    "Verif.IntText.C08_total"
   ],
   "note": ""
  },
  {
   "property": "C09",
   "status": "proved",
   "theorems": [
    "Verif.IntText.C09_canonical",
    "Verif.IntText.C09_round_trip",
    "Verif.IntText.C09_injective",
    "Verif.IntText.C09_built"
   ],
   "note": ""
  },
  {
   "property": "C10",
   "status": "proved",
   "theorems": [
    "Verif.Rope.C10_equality",
    "Verif.Rope.C10_not_equal"
   ],
   "note": ""
  },
  {
   "property": "C11",
   "status": "proved",
   "theorems": [
    "Verif.Rope.C11_len",
    "Verif.Rope.C11_to_bytes",
    "Verif.Rope.C11_concat",
    "Verif.Rope.C11_len_to_bytes"
   ],
   "note": ""
  },
  {
   "property": "C12",
   "status": "partial",
   "theorems": [
    "Verif.Bytes.C12_slice",
    "Verif.Bytes.C12_get_partial",
    "Verif.Bytes.C12_get_violated"
   ],
   "note": "slice proved in full. get never faults and answers None exactly out of range; on the native target bytes 128-255 come back sign-extended (C12_get_violated), so the value part holds for bytes below 128 only."
  },
  {
   "property": "C13",
   "status": "proved",
   "theorems": [
    "Verif.Layout.C13_fields_fit",
    "Verif.Layout.C13_alignment",
    "Verif.Layout.C13_minimal"
   ],
   "note": ""
  },
  {
   "property": "C14",
   "status": "proved",
   "theorems": [
    "Verif.Layout.C14_variant_fits",
    "Verif.Layout.C14_shape",
    "Verif.Layout.C14_find_variant"
   ],
   "note": ""
  },
  {
   "property": "C15",
   "status": "proved",
   "theorems": [
    "Verif.Dominance.C15_exact",
    "Verif.Dominance.C15_deterministic"
   ],
   "note": ""
  },
  {
   "property": "C16",
   "status": "partial",
   "theorems": [
    "Verif.Arith.C16_fold",
    "Verif.Arith.C16_fold_partial",
    "Verif.Arith.C16_result_in_range",
    "Verif.Arith.C16_folds_constants",
    "Verif.Arith.C16_fold_violated"
   ],
   "note": "Proved for every constant attribute for all operations but signed division and remainder (C16_fold), and for those too when the attributes are in range of the type (C16_fold_partial); out of range they fold wrongly (C16_fold_violated). Folding itself only produces in-range attributes (C16_result_in_range)."
  },
  {
   "property": "C17",
   "status": "proved",
   "theorems": [
    "Verif.Dce.C17_only_dead",
    "Verif.Dce.C17_behaviour",
    "Verif.Dce.C17_regions_kept",
    "Verif.Dce.C17_impure_kept",
    "Verif.Dce.C17_fixpoint",
    "Verif.Dce.C17_dead_trap_removed"
   ],
   "note": "Runs that trap in a removable operation are excluded from C17_behaviour: a dead trapping division is removed (C17_dead_trap_removed)."
  },
  {
   "property": "C18",
   "status": "proved",
   "theorems": [
    "Verif.GlobalDce.C18_exact",
    "Verif.GlobalDce.C18_reachable_kept",
    "Verif.GlobalDce.C18_removed_iff",
    "Verif.GlobalDce.C18_reachability_kept",
    "Verif.GlobalDce.C18_idempotent",
    "Verif.GlobalDce.C18_nonrecursive_violated"
   ],
   "note": "Proved for the recursive mode, the only one the compiler uses; the non-recursive mode misses calls from nested modules (C18_nonrecursive_violated)."
  },
  {
   "property": "C19",
   "status": "proved",
   "theorems": [
    "Verif.CallGraph.C19_components",
    "Verif.CallGraph.C19_recursive_exact",
    "Verif.CallGraph.C19_edges_exact",
    "Verif.CallGraph.C19_graph_exact",
    "Verif.CallGraph.C19_module"
   ],
   "note": ""
  },
  {
   "property": "C20",
   "status": "partial",
   "theorems": [
    "Verif.Inline.C20_inline_partial",
    "Verif.Inline.C20_inline_succeeds",
    "Verif.Inline.C20_inline_wellFormed_partial",
    "Verif.Inline.C20_pass_partial",
    "Verif.Inline.C20_recursive_never",
    "Verif.Inline.C20_pass_recursive",
    "Verif.Inline.C20_early_return_violated"
   ],
   "note": "For every meaning of the other operations (they may run their regions any number of times and call functions), every module of single-block functions that satisfies the rules of the IR, and every configuration of the pass: results, effects, traps and divergence are the same. A callee that returns from within a region as well as at its end is inlined wrongly (C20_early_return_violated; the compiler's own lowering does not produce such functions). Recursive functions are never inlined. Nested regions with several blocks are not modelled."
  },
  {
   "property": "C21",
   "status": "proved",
   "theorems": [
    "Verif.Live.C21_exact",
    "Verif.Live.C21_terminates",
    "Verif.Live.C21_casts"
   ],
   "note": "For every body, with the alias and borrow maps of the pass. C21_casts needs casts listed after the casts they build on (block order); what analyze_temporary_borrows puts into the borrow map is not modelled, the map is arbitrary."
  },
  {
   "property": "C22",
   "status": "partial",
   "theorems": [
    "Verif.RcPair.C22_shape",
    "Verif.RcPair.C22_complete",
    "Verif.RcPair.C22_no_dangling",
    "Verif.RcPair.C22_pair_partial",
    "Verif.RcPair.C22_pass_partial",
    "Verif.RcPair.C22_quiet_partial",
    "Verif.RcPair.C22_violated"
   ],
   "note": "Proved for every block and every heap when the pairs that are taken out are not needed (some other reference keeps the object alive), in particular when nothing between the two gives up a reference. C22_violated: a release of the owner between the two frees the object, and the pass takes the pair out."
  },
  {
   "property": "C23",
   "status": "partial",
   "theorems": [
    "Verif.RcInsert.C23_keeps_code",
    "Verif.RcInsert.C23_safe_partial",
    "Verif.RcInsert.C23_balanced_partial",
    "Verif.RcInsert.C23_straight_partial",
    "Verif.RcInsert.C23_leak_violated",
    "Verif.RcInsert.C23_double_violated",
    "Verif.RcInsert.C23_tail_violated"
   ],
   "note": "Safety along every path and exact balance on paths where liveness does not change across edges (all straight-line code), for bodies that are Regular and Tidy, with any borrow analysis and call contracts that meet those conditions. False otherwise: a value used on one side of a branch only leaks on the other (C23_leak_violated), a block argument whose value stays in use is released twice (C23_double_violated), the argument of a tail call without a contract is released before the call (C23_tail_violated). How borrow analysis and ownership summaries are computed is not modelled."
  },
  {
   "property": "C24",
   "status": "proved",
   "theorems": [
    "Verif.RcLower.C24_lowering",
    "Verif.RcLower.C24_destroyed_exactly_once"
   ],
   "note": ""
  },
  {
   "property": "C25",
   "status": "proved",
   "theorems": [
    "Verif.Rtti.C25_indices",
    "Verif.Rtti.C25_stable",
    "Verif.Rtti.C25_table"
   ],
   "note": ""
  },
  {
   "property": "C26",
   "status": "partial",
   "theorems": [
    "Verif.Solver.C26_accepted_equations_agree_partial",
    "Verif.Solver.C26_any_solution_partial",
    "Verif.Solver.C26_repeated_ability_violated",
    "Verif.Solver.C26_row_binding_lost_violated"
   ],
   "note": "Proved for effect rows whose abilities take no type arguments and are listed once (C26_accepted_equations_agree_partial, C26_any_solution_partial). False of the code otherwise: {State(a), State(b)} against {State(Int), State(Bool)} is accepted with both variables bound to one type (C26_repeated_ability_violated), and a later binding of a row variable can overwrite an earlier one (C26_row_binding_lost_violated)."
  },
  {
   "property": "C27",
   "status": "partial",
   "theorems": [
    "Verif.Solver.C27_acyclic_partial",
    "Verif.Solver.C27_apply_terminates_partial",
    "Verif.Solver.C27_solving_terminates_partial",
    "Verif.Solver.C27_occurs_check",
    "Verif.Solver.C27_unsatisfiable_rejected_partial",
    "Verif.Solver.C27_cycle_through_row_violated"
   ],
   "note": "The occurs check is exact for any state (C27_occurs_check). Acyclicity, termination of substitution and of solving, and rejection of unsatisfiable equations are proved for abilities without type arguments. False of the code in general: a cycle through the arguments of an ability in a bound row is accepted (C27_cycle_through_row_violated)."
  },
  {
   "property": "C28",
   "status": "partial",
   "theorems": [
    "Verif.Scheme.C28_fresh_partial",
    "Verif.Scheme.C28_foreign_variable_violated"
   ],
   "note": "Proved for every history in which type variables of the solver's own kind come from this solver; counters are unbounded numbers, the program's are 64-bit. False of the code for constraints that mention another solver's type variables, which are not reserved (C28_foreign_variable_violated)."
  },
  {
   "property": "C29",
   "status": "proved",
   "theorems": [
    "Verif.Scheme.C29_roundtrip",
    "Verif.Scheme.C29_instances",
    "Verif.Scheme.C29_fresh_instance",
    "Verif.Scheme.C29_fresh_signature"
   ],
   "note": "For types that mention no quantified variable yet; an example shows that one would be captured. A type that resolves to one without variables is returned unresolved."
  },
  {
   "property": "C30",
   "status": "partial",
   "theorems": [
    "Verif.EffectRow.C30_contains",
    "Verif.EffectRow.C30_add",
    "Verif.EffectRow.C30_remove_one",
    "Verif.EffectRow.C30_remove_partial",
    "Verif.EffectRow.C30_remove_violated",
    "Verif.EffectRow.C30_remove_with_constraint",
    "Verif.EffectRow.C30_union",
    "Verif.EffectRow.C30_union_open",
    "Verif.EffectRow.C30_conflicts"
   ],
   "note": "All operations proved in full except removal, which deletes only the first occurrence: a row listing an effect twice still contains it (C30_remove_violated). C30_remove_partial covers rows without repetition. The union of two open rows introduces a fresh tail that is not related to the two old tails (stated in C30_union_open)."
  },
  {
   "property": "C31",
   "status": "partial",
   "theorems": [
    "Verif.Solver.C31_unified_rows_partial",
    "Verif.Solver.C31_decision_partial",
    "Verif.Solver.C31_pure_row_violated",
    "Verif.Solver.C31_repeated_ability_violated"
   ],
   "note": "Proved for abilities without type arguments: same tail, same effects unless the left row is pure and the right one is not empty, and the exact acceptance criterion. False of the code for a pure row on the left and for rows that list an ability twice (C31_pure_row_violated, C31_repeated_ability_violated)."
  },
  {
   "property": "C32",
   "status": "partial",
   "theorems": [
    "Verif.Mono.C32_unique_partial",
    "Verif.Mono.C32_total",
    "Verif.Mono.C32_effects_violated",
    "Verif.Mono.C32_tuple_name_violated",
    "Verif.Mono.C32_function_name_violated",
    "Verif.Mono.C32_continuation_violated"
   ],
   "note": "Proved for type arguments that are concrete, in programs whose type names are distinct identifiers other than the ten words with a meaning in generated names, up to effect rows and calling conventions. False of the code beyond that: C32_effects_violated, C32_tuple_name_violated, C32_function_name_violated; continuation types make name generation panic (C32_continuation_violated). The hash used as a node id of the copy is not modelled."
  },
  {
   "property": "C33",
   "status": "proved",
   "theorems": [
    "Verif.CallConv.C33_least",
    "Verif.CallConv.C33_conservative",
    "Verif.CallConv.C33_monotone",
    "Verif.CallConv.C33_function_type",
    "Verif.CallConv.C33_table",
    "Verif.CallConv.C33_encoding",
    "Verif.CallConv.C33_attribute",
    "Verif.CallConv.C33_needs"
   ],
   "note": ""
  },
  {
   "property": "C34",
   "status": "proved",
   "theorems": [
    "Verif.NameEnv.C34_lookup",
    "Verif.NameEnv.C34_lookup_qualified",
    "Verif.NameEnv.C34_merge",
    "Verif.NameEnv.C34_resolve_name",
    "Verif.NameEnv.C34_scopes"
   ],
   "note": ""
  },
  {
   "property": "C35",
   "status": "partial",
   "theorems": [
    "Verif.Case.C35_exhaustive_partial",
    "Verif.Case.C35_unknown_type",
    "Verif.Case.C35_guards_ignored",
    "Verif.Case.C35_enum_accepted",
    "Verif.Case.C35_list_accepted",
    "Verif.Case.C35_nested_violated"
   ],
   "note": "Proved when the fields of variant patterns are variables and wildcards; false for nested patterns (C35_nested_violated). The converse is proved for enums and lists. Enums are looked up by name; programs with two enums of one name are outside the model."
  },
  {
   "property": "C36",
   "status": "partial",
   "theorems": [
    "Verif.IrText.C36_string",
    "Verif.IrText.C36_bytes",
    "Verif.IrText.C36_symbol",
    "Verif.IrText.C36_int",
    "Verif.IrText.C36_attribute",
    "Verif.IrText.C36_type",
    "Verif.IrText.C36_digit_alias_violated",
    "Verif.IrText.C36_keyword_dialect_violated",
    "Verif.IrText.C36_infinity_violated"
   ],
   "note": "Strings, bytes, symbols and 128-bit integers: proved without restriction. Attributes and types, nested to any depth: proved for everything that can be written (names that are words, finite floats, 64-bit locations), assuming of the standard library that finite f64 values print as digits and read back. False of the code for aliases starting with a digit (C36_digit_alias_violated), type attributes of a dialect starting with unit, true or false (C36_keyword_dialect_violated) and infinities (C36_infinity_violated). Operations, regions and modules are not covered by this claim."
  },
  {
   "property": "C37",
   "status": "partial",
   "theorems": [
    "Verif.Literals.C37_strings_partial",
    "Verif.Literals.C37_raw",
    "Verif.Literals.C37_pattern",
    "Verif.Literals.C37_crash_violated",
    "Verif.Literals.C37_hex_violated",
    "Verif.Literals.C37_braces_violated",
    "Verif.Literals.C37_prefix_violated"
   ],
   "note": "Proved for texts without \\x80 and above, braces after \\u and the prefix s (C37_strings_partial), and for raw texts (C37_raw). False of the code otherwise: the expression \"\\xff\" crashes the compiler (C37_crash_violated), and three kinds of literal denote different texts in expressions and patterns (C37_hex_violated, C37_braces_violated, C37_prefix_violated)."
  },
  {
   "property": "C38",
   "status": "partial",
   "theorems": [
    "Verif.Literals.C38_nat",
    "Verif.Literals.C38_nat_only",
    "Verif.Literals.C38_int",
    "Verif.Literals.C38_agree",
    "Verif.Literals.C38_compiled_nat",
    "Verif.Literals.C38_compiled_int"
   ],
   "note": "Out of range literals get an error, but on the native and wasm targets that error does not stop the compilation: C95_literal_violated. All bases, underscores anywhere, the 64-bit boundaries, agreement of expressions and patterns on every text, and the 31-bit range check when compiling. A text with two signs such as +-1 or ++1 is outside C38_nat_only: the standard library accepts one more leading plus."
  },
  {
   "property": "C39",
   "status": "proved",
   "theorems": [
    "Verif.DataReg.C39_registry"
   ],
   "note": ""
  },
  {
   "property": "C40",
   "status": "partial",
   "theorems": [
    "Verif.LspPos.C40_roundtrip",
    "Verif.LspPos.C40_position_partial",
    "Verif.LspPos.C40_offset_partial",
    "Verif.LspPos.C40_surrogate",
    "Verif.LspPos.C40_no_such_line_partial",
    "Verif.LspPos.C40_clamp_partial",
    "Verif.LspPos.C40_clamp_violated",
    "Verif.LspPos.C40_line_breaks_violated"
   ],
   "note": "The round trip is proved for every document below 4 GiB. That positions are the editor's is proved for documents without VT, FF, NEL, LS and PS, which ropey takes for line ends and the protocol does not (C40_line_breaks_violated). Clamping is proved for documents without carriage returns and is wrong with them (C40_clamp_violated). ropey is modelled from its documentation."
  },
  {
   "property": "C41",
   "status": "partial",
   "theorems": [
    "Verif.Bytes.C41_get_or_panic_violated",
    "Verif.Bytes.C41_get_or_panic_partial"
   ],
   "note": "False of the code: neither target checks the index (C41_get_or_panic_violated). The in-range half is proved."
  },
  {
   "property": "C42",
   "status": "partial",
   "theorems": [
    "Verif.Rtti.C42_lifecycle_partial",
    "Verif.Rtti.C42_dispatch",
    "Verif.Rtti.C42_erased_field_violated",
    "Verif.Rtti.C42_func_ptr_field_violated",
    "Verif.Rtti.C42_untyped_object_violated",
    "Verif.Rtti.C42_function_payload_violated"
   ],
   "note": "Proved (construction, later destruction, dispatch through the table) for declarations whose fields have known types. False of the code for: erased (anyref) fields, which are never released (C42_erased_field_violated); a struct field named func_ptr (C42_func_ptr_field_violated); function values in enums, released as objects (C42_function_payload_violated); byte strings and boxed numbers held by other objects, never freed (C42_untyped_object_violated)."
  },
  {
   "property": "C43",
   "status": "proved",
   "theorems": [
    "Verif.CallConv.C43_lowered",
    "Verif.CallConv.C43_closure"
   ],
   "note": ""
  },
  {
   "property": "C44",
   "status": "partial",
   "theorems": [
    "Verif.NameEnv.C44_use_imports_partial",
    "Verif.NameEnv.C44_use_meaning_partial",
    "Verif.NameEnv.C44_use_imports_violated"
   ],
   "note": "False of the code when one import is named like a namespace another import's path goes through (C44_use_imports_violated: use abilities::Abort together with use Abort::abort); proved otherwise (C44_use_imports_partial)."
  },
  {
   "property": "C45",
   "status": "partial",
   "theorems": [
    "Verif.LspPos.C45_documents_partial",
    "Verif.LspPos.C45_change_partial",
    "Verif.LspPos.C45_documents_violated"
   ],
   "note": "Proved for sessions whose documents stay free of VT, FF, NEL, LS and PS; false with them (C45_documents_violated)."
  },
  {
   "property": "C46",
   "status": "partial",
   "theorems": [
    "Verif.LspPos.C46_input_edit_partial",
    "Verif.LspPos.C46_input_edit_violated"
   ],
   "note": "Proved for documents free of VT, FF, NEL, LS, PS and of carriage returns not followed by a newline; false with them (C46_input_edit_violated)."
  },
  {
   "property": "C47",
   "status": "proved",
   "theorems": [
    "Verif.LspPos.C47_completion_prefix"
   ],
   "note": "For every notion of identifier character."
  },
  {
   "property": "C48",
   "status": "proved",
   "theorems": [
    "Verif.Literals.C48_bytes",
    "Verif.Literals.C48_all_bytes",
    "Verif.Literals.C48_raw_bytes",
    "Verif.Literals.C48_rune_char",
    "Verif.Literals.C48_rune_escape"
   ],
   "note": "Quoted and raw byte strings, and runes."
  },
  {
   "property": "C50",
   "status": "partial",
   "theorems": [
    "Verif.Scheme.C50_types_fresh",
    "Verif.Scheme.C50_rows_fresh_partial",
    "Verif.Scheme.C50_let_snapshot_violated"
   ],
   "note": "Type variables: proved for every history. Row variables: proved as long as solving for a let binding invents no row variable beyond the function's counter. False of the code otherwise (C50_let_snapshot_violated): the solver that is run for each let has a counter of its own, and the row variable it invents stays in the type of the binding."
  },
  {
   "property": "C51",
   "status": "proved",
   "theorems": [
    "Verif.Scheme.C51_let",
    "Verif.Scheme.C51_rows_resolved"
   ],
   "note": "For a pattern that binds one name, whenever the bindings of row variables are acyclic; C51_rows_resolved shows that they are for abilities without type arguments. What the solver knows when the let is reached is what counts: method calls that are resolved after solving are outside the statement."
  },
  {
   "property": "C49",
   "status": "partial",
   "theorems": [
    "Verif.Mono.C49_sound",
    "Verif.Mono.C49_found_partial",
    "Verif.Mono.C49_redirect",
    "Verif.Mono.C49_recorded_partial",
    "Verif.Mono.C49_record_concrete",
    "Verif.Mono.C49_effect_parameter_violated"
   ],
   "note": "Soundness and redirection proved for all uses. Arguments are found whenever each parameter occurs in a parameter or result type outside type applications and continuations; a parameter that occurs only in an effect row is never found (C49_effect_parameter_violated)."
  },
  {
   "property": "C52",
   "status": "partial",
   "theorems": [
    "Verif.Case.C52_logical",
    "Verif.Case.C52_pipeline_partial",
    "Verif.Case.C52_accepted_partial",
    "Verif.Case.C52_tested_partial",
    "Verif.Case.C52_agree_partial",
    "Verif.Case.C52_nested_violated",
    "Verif.Case.C52_uncovered_violated",
    "Verif.Case.C52_unknown_type_violated",
    "Verif.Case.C52_float_violated"
   ],
   "note": "The source-logical lowering is right for all supported patterns when exhaustiveness is (C52_logical). The lowering used by the pipeline is right for flat patterns and covered values; it is wrong for nested patterns (C52_nested_violated), values no arm matches when the checker only warns or knows no type (C52_uncovered_violated, C52_unknown_type_violated), and panics on float patterns (C52_float_violated)."
  },
  {
   "property": "C53",
   "status": "proved",
   "theorems": [
    "Verif.Inline.C53_inlining_ends"
   ],
   "note": "For modules in which operations have distinct numbers and calls have no regions."
  },
  {
   "property": "C54",
   "status": "partial",
   "theorems": [
    "Verif.Operators.C54_native_int",
    "Verif.Operators.C54_native_nat",
    "Verif.Operators.C54_native_float",
    "Verif.Operators.C54_wasm_int",
    "Verif.Operators.C54_wasm_float",
    "Verif.Operators.C54_wasm_nat_partial",
    "Verif.Operators.C54_wasm_nat_violated"
   ],
   "note": "Int and Float: all operators, both targets, all operands. Nat: all operators natively; on WebAssembly all but <=, > and >=, for which the compiler refuses the program (C54_wasm_nat_violated)."
  },
  {
   "property": "C55",
   "status": "partial",
   "theorems": [
    "Verif.Operators.C55_targets_agree_partial",
    "Verif.Operators.C55_extend_violated",
    "Verif.Operators.C55_predicate_violated"
   ],
   "note": "All operations, types and operands, except conversions from or to unsigned types and unsigned comparisons; there the targets differ (C55_extend_violated) or WebAssembly refuses (C55_predicate_violated). The meaning of Cranelift and WebAssembly instructions is stated in Operators/Spec.lean and trusted."
  },
  {
   "property": "C56",
   "status": "proved",
   "theorems": [
    "Verif.ScfToCf.C56_outcome_unique",
    "Verif.ScfToCf.C56_lowering_preserves_behaviour",
    "Verif.ScfToCf.C56_never_stuck"
   ],
   "note": "For every function body that satisfies the rules in ScfToCf/Spec.lean (WF) and every meaning of the remaining operations, which have no regions when the pass runs. Types of block arguments are not modelled."
  },
  {
   "property": "C57",
   "status": "proved",
   "theorems": [
    "Verif.ScfToCf.C57_ends",
    "Verif.ScfToCf.C57_only_branches_left",
    "Verif.ScfToCf.C57_limits_do_not_matter"
   ],
   "note": "Same scope as C56. C57_limits_do_not_matter: the fuel of the model is not a restriction."
  },
  {
   "property": "C58",
   "status": "proved",
   "theorems": [
    "Verif.IrStore.C58_use_chains",
    "Verif.IrStore.C58_unused",
    "Verif.IrStore.C58_replace_all_uses",
    "Verif.IrStore.C58_removed"
   ],
   "note": "Callers must not edit operands of a removed operation or write operands through op_mut, which is not modelled."
  },
  {
   "property": "C59",
   "status": "proved",
   "theorems": [
    "Verif.IrStore.C59_definitions",
    "Verif.IrStore.C59_typed",
    "Verif.IrStore.C59_stays"
   ],
   "note": "Same scope as C58."
  },
  {
   "property": "C60",
   "status": "proved",
   "theorems": [
    "Verif.IrStore.C60_containment",
    "Verif.IrStore.C60_no_sharing"
   ],
   "note": "For callers that create blocks empty and detached and regions without owner, as the compiler does; changes through block_mut and region_mut are not modelled."
  },
  {
   "property": "C61",
   "status": "partial",
   "theorems": [
    "Verif.IrStore.C61_clone_returns",
    "Verif.IrStore.C61_clone_op_partial",
    "Verif.IrStore.C61_clone_region_partial",
    "Verif.IrStore.C61_values_partial",
    "Verif.IrStore.C61_forward_violated"
   ],
   "note": "Proved when no value is used, in reading order, before it is defined; then also C61_values_partial. That cloning returns, keeps what existed and extends the mapping by what is defined inside holds always (C61_clone_returns). False when a block that uses a value is listed before the block that defines it: the clone keeps referring to the original value (C61_forward_violated)."
  },
  {
   "property": "C62",
   "status": "proved",
   "theorems": [
    "Verif.Scope.C62_lexical",
    "Verif.Scope.C62_distinct",
    "Verif.Scope.C62_bound"
   ],
   "note": "Method calls, type annotations and the shifting of spans are not modelled."
  },
  {
   "property": "C63",
   "status": "partial",
   "theorems": [
    "Verif.Scope.C63_local_partial",
    "Verif.Scope.C63_function_violated",
    "Verif.Scope.C63_variant_violated"
   ],
   "note": "Proved for names of parameters, lets and patterns. False for functions and types: the first definition with that name in the file is taken, be it a parameter (C63_function_violated); a variant is never found (C63_variant_violated)."
  },
  {
   "property": "C64",
   "status": "partial",
   "theorems": [
    "Verif.Scope.C64_local_partial",
    "Verif.Scope.C64_parameter_violated",
    "Verif.Scope.C64_function_violated",
    "Verif.Scope.C64_capture_violated"
   ],
   "note": "Proved for binders whose entry covers just the name, all of whose references are variables, and a new name that does not occur. False for a parameter with a type annotation, which is lost (C64_parameter_violated), for a function, whose whole declaration is replaced (C64_function_violated), and when the new name is taken (C64_capture_violated)."
  },
  {
   "property": "C65",
   "status": "proved",
   "theorems": [
    "Verif.ModEnv.C65_reachable",
    "Verif.ModEnv.C65_only",
    "Verif.ModEnv.C65_function_identity"
   ],
   "note": "The path std::io::Io is taken by the compiler. Imports (use) are the subject of C44."
  },
  {
   "property": "C66",
   "status": "partial",
   "theorems": [
    "Verif.ModEnv.C66_constructor_partial",
    "Verif.ModEnv.C66_variants_violated",
    "Verif.ModEnv.C66_struct_violated"
   ],
   "note": "Proved when no body introduces a name twice, counting variants as names of the body. False when two enums share a variant (C66_variants_violated) or a variant is named like a struct (C66_struct_violated): the identity of a variant leaves out its enum."
  },
  {
   "property": "C67",
   "status": "proved",
   "theorems": [
    "Verif.Normalize.C67_meaning",
    "Verif.Normalize.C67_counter"
   ],
   "note": "For the expressions the resolver leaves, by C62; the overflow of the counter of locals at 2^32 is not modelled."
  },
  {
   "property": "C68",
   "status": "proved",
   "theorems": [
    "Verif.Normalize.C68_normal",
    "Verif.Normalize.C68_validates",
    "Verif.Normalize.C68_idempotent"
   ],
   "note": ""
  },
  {
   "property": "C69",
   "status": "partial",
   "theorems": [
    "Verif.Normalize.C69_order_partial",
    "Verif.Normalize.C69_order_violated"
   ],
   "note": "Proved without a spread and with the spread first; false when a field stands before the spread (C69_order_violated): the spread is evaluated first."
  },
  {
   "property": "C70",
   "status": "partial",
   "theorems": [
    "Verif.Closure.C70_lambdas_become_functions",
    "Verif.Closure.C70_closures_become_pairs",
    "Verif.Closure.C70_conversion",
    "Verif.Closure.C70_clash_violated"
   ],
   "note": "Proved when no function of the program has the form of a name the pass makes, x::__clam_n. False otherwise (C70_clash_violated): the pass never looks at existing names. A caller without evidence gives an untagged lambda the null evidence; the specification says so too."
  },
  {
   "property": "C71",
   "status": "proved",
   "theorems": [
    "Verif.Closure.C71_ends",
    "Verif.Closure.C71_no_lambda",
    "Verif.Closure.C71_no_closure",
    "Verif.Closure.C71_well_formed"
   ],
   "note": "Names of their own under the condition of C70."
  },
  {
   "property": "C72",
   "status": "partial",
   "theorems": [
    "Verif.Effects.C72_handlers_partial",
    "Verif.Effects.C72_arm_operation_violated",
    "Verif.Effects.C72_after_handle_violated",
    "Verif.Effects.C72_resume_value_violated",
    "Verif.Effects.C72_missing_arm_violated",
    "Verif.Effects.C72_direct_closure_violated",
    "Verif.Effects.C72_resume_in_closure_violated"
   ],
   "note": "Proved for programs where resume is the last thing an arm does, fn arms need no continuation, pure closures capture nothing, and runs that never nest two handlers for one ability. False otherwise, with six witnesses (C72_*_violated): an operation in an arm goes to a handler inside the arm's own; evidence of a completed handle stays in use; resume gives the value before the do arm; a missing arm runs another arm; a pure closure's environment is overwritten by evidence; resume in a closure under another handle casts a Normal answer to Escape."
  },
  {
   "property": "C73",
   "status": "partial",
   "theorems": [
    "Verif.EffectTrack.C73_rows_partial",
    "Verif.EffectTrack.C73_main_partial",
    "Verif.EffectTrack.C73_runs_partial",
    "Verif.EffectTrack.C73_order_violated",
    "Verif.EffectTrack.C73_leftover_violated",
    "Verif.EffectTrack.C73_skipped_violated",
    "Verif.EffectTrack.C73_method_violated",
    "Verif.EffectTrack.C73_open_annotation_violated",
    "Verif.EffectTrack.C73_two_tails_violated",
    "Verif.EffectTrack.C73_let_violated"
   ],
   "note": "Proved, down to runs of the machine of C72, for first-order programs with closed annotations where a callee is annotated or declared before its caller, called methods perform nothing, and every handler either handles all its body performs or stands (outside a let value) in a function with a non-empty closed annotation that calls only annotated functions. False otherwise, with seven witnesses (C73_*_violated): declaration order, what a handler leaves over in a pure context, operands of && and nested handlers in a handled body, methods, open annotations, two open rows, values of let. Function values and abilities with type arguments are not covered."
  },
  {
   "property": "C74",
   "status": "partial",
   "theorems": [
    "Verif.WasmCf.C74_compiles",
    "Verif.WasmCf.C74_preserves_partial",
    "Verif.WasmCf.C74_valid_partial",
    "Verif.WasmCf.C74_continue_violated",
    "Verif.WasmCf.C74_break_violated",
    "Verif.WasmCf.C74_break_nested_violated",
    "Verif.WasmCf.C74_result_violated",
    "Verif.WasmCf.C74_valid_violated"
   ],
   "note": "Proved: every function that satisfies the rules (and passes at most one value by continue) is compiled; behaviour is preserved both ways and the code is valid, when continue/break stand under exactly one conditional of their loop, and results come from first branches (behaviour) or from regions not ending with a conditional (validity). False otherwise, with five witnesses (C74_*_violated): continue directly in a loop body leaves the loop, break directly in it leaves one label too many, break under two conditionals runs forever, a result given only by the second branch is lost, the usual loop with a result is not valid. The front end produces no scf.loop today, and its conditionals end their first branch with a yield, so compiled Tribute programs meet only the proved part; the pass is public."
  },
  {
   "property": "C75",
   "status": "partial",
   "theorems": [
    "Verif.Typing.C75_logic_operator_violated",
    "Verif.Typing.C75_generic_method_violated",
    "Verif.Typing.C75_method_arity_violated",
    "Verif.Typing.C75_tuple_pattern_violated",
    "Verif.Typing.C75_two_walks_violated",
    "Verif.Typing.C75_use_before_definition_violated",
    "Verif.Typing.C75_let_method_violated",
    "Verif.Typing.C75_accepted_functions_partial",
    "Verif.Typing.C75_plain_functions_partial",
    "Verif.Typing.C75_accepted_modules_partial",
    "Verif.Typing.C75_annotated_modules_partial"
   ],
   "note": "False, with seven accepted modules that cannot be typed (C75_*_violated): && and || as the value of a block, generic methods, missing method arguments, tuple patterns on the result of a call, two walks with separate variables, functions used before their definition, let-bound functions with operators on their parameters. Proved for all modules: what acceptance does mean. C75_accepted_functions_partial: if the checker dropped no connection between types (a ghost flag of the model), every function is well typed at every type of its final scheme, against the final schemes of the functions checked before it and the declared types of the others. C75_plain_functions_partial: the flag is never set for modules without && and ||, method calls, tuple patterns and list patterns. C75_accepted_modules_partial and C75_annotated_modules_partial: the whole module is well typed if functions used before they are checked have their declared types, in particular if they are declared with all their types. Missing: the dropped connections."
  },
  {
   "property": "C76",
   "status": "partial",
   "theorems": [
    "Verif.Run.C76_well_typed_never_wrong",
    "Verif.Run.C76_accepted_never_wrong_partial",
    "Verif.Run.C76_logic_operator_violated",
    "Verif.Run.C76_use_before_definition_violated"
   ],
   "note": "False: accepted modules call a Boolean and a number (C76_*_violated). C76_well_typed_never_wrong: no well typed module goes wrong, for every argument and every number of steps (closures, let polymorphism, patterns, constructors as functions, methods selected by the receiver, extern functions). C76_accepted_never_wrong_partial: hence accepted modules do not go wrong under the conditions of C75_accepted_modules_partial. Missing: modules in which the checker drops connections, and abilities."
  },
  {
   "property": "C77",
   "status": "proved",
   "theorems": [
    "Verif.Borrow.C77_never_kept",
    "Verif.Borrow.C77_ends",
    "Verif.Borrow.C77_admissible",
    "Verif.Borrow.C77_largest",
    "Verif.Borrow.C77_order_irrelevant"
   ],
   "note": "C77_never_kept for all runs; C77_ends, C77_admissible, C77_largest, C77_order_irrelevant for the search."
  },
  {
   "property": "C78",
   "status": "partial",
   "theorems": [
    "Verif.Borrow.C78_direct_partial",
    "Verif.Borrow.C78_tail_partial",
    "Verif.Borrow.C78_indirect_partial",
    "Verif.Borrow.C78_absent_partial",
    "Verif.Borrow.C78_indirect_violated"
   ],
   "note": "Proved for direct calls (C78_direct_partial), for tail calls (C78_tail_partial, C78_indirect_partial) and for which calls have no contract (C78_absent_partial). False for a call by reference that is not a tail call: it never has a contract, and a function of CPS convention with empty result consumes its parameters (C78_indirect_violated). The route through the compiler that is in use today makes no such function. Missing: a second look at the contracts after lowering (validated_for_clif)."
  },
  {
   "property": "C79",
   "status": "partial",
   "theorems": [
    "Verif.TempBorrow.C79_kept",
    "Verif.TempBorrow.C79_temporaries_not_stored",
    "Verif.TempBorrow.C79_parameters_not_stored",
    "Verif.TempBorrow.C79_safe",
    "Verif.TempBorrow.C79_straight_partial"
   ],
   "note": "C79_kept, C79_temporaries_not_stored, C79_parameters_not_stored and C79_safe are proved for all bodies that meet `Plain`, which asks nothing of the analyses. C79_straight_partial (nothing is leaked) only where control flow does not split, because C23 is false otherwise. Not covered: that the field a reference was read from is not overwritten before the reference is used."
  },
  {
   "property": "C80",
   "status": "partial",
   "theorems": [
    "Verif.ListLower.C80_same_behaviour_partial",
    "Verif.ListLower.C80_no_list_operation_partial",
    "Verif.ListLower.C80_violated"
   ],
   "note": "C80_violated: if `list.tail` reads the result of another such operation whose block stands later in the text (allowed, if it dominates), the lowered function reads a value nothing defines, because operands are noted down before lowering starts. C80_same_behaviour_partial and C80_no_list_operation_partial are for all functions without that; the functions the front end makes are in that order."
  },
  {
   "property": "C81",
   "status": "partial",
   "theorems": [
    "Verif.Boxing.C81_casts_resolved",
    "Verif.Boxing.C81_native",
    "Verif.Boxing.C81_native_count",
    "Verif.Boxing.C81_wasm_partial",
    "Verif.Boxing.C81_wasm_exact",
    "Verif.Boxing.C81_violated",
    "Verif.Boxing.C81_literals"
   ],
   "note": "C81_native and C81_native_count: proved for every value on the native target. C81_violated: on WebAssembly an integer of more than 31 bits is changed (2^30 comes back as -2^30), so the targets disagree. C81_wasm_exact: exactly the numbers of 31 bits come back there, with C81_wasm_partial as one half; C81_literals: every literal is one of them."
  },
  {
   "property": "C82",
   "status": "proved",
   "theorems": [
    "Verif.Canon.C82_preserves"
   ],
   "note": "C82_preserves: for every well formed body, machine and arguments, the same ends. Casts are assumed to be reversible where they are defined (C81 says where the targets keep that)."
  },
  {
   "property": "C83",
   "status": "partial",
   "theorems": [
    "Verif.Canon.C83_settles",
    "Verif.Canon.C83_nothing_left_partial",
    "Verif.Canon.C83_violated"
   ],
   "note": "C83_settles: proved for any body (two iterations are enough). C83_nothing_left_partial: nothing on integer constants is left. C83_violated: a conditional on a literal True or False is never folded, because those constants are not seen as integers, and a conjunction of constants 1 becomes -1, which is not seen as true."
  },
  {
   "property": "C84",
   "status": "partial",
   "theorems": [
    "Verif.Instances.C84_same_behaviour_partial",
    "Verif.Instances.C84_same_behaviour",
    "Verif.Instances.C84_extern_violated"
   ],
   "note": "C84_same_behaviour: proved for all programs whose generic functions have bodies. C84_same_behaviour_partial: with generic external functions, if the generated names are linked to the same thing. C84_extern_violated: they are not; a generic external function used at a concrete type is called under a name nothing is linked to (only the list intrinsic is recognised again later)."
  },
  {
   "property": "C85",
   "status": "partial",
   "theorems": [
    "Verif.Instances.C85_exactly_needed",
    "Verif.Instances.C85_none_left",
    "Verif.Instances.C85_sources_kept",
    "Verif.Instances.C85_copies_partial",
    "Verif.Instances.C85_effects_violated"
   ],
   "note": "C85_exactly_needed, C85_none_left and C85_sources_kept: proved. C85_copies_partial: each copy is the function at its types, if the needed instances have different names. C85_effects_violated: two instances that differ in an effect row have the same name, and the function found under it is that of the first. Type checking is assumed to hand over well formed types (Checked), and hashes of type arguments not to clash (NoClash)."
  },
  {
   "property": "C86",
   "status": "partial",
   "theorems": [
    "Verif.Instances.C86_limit_partial",
    "Verif.Instances.C86_chain",
    "Verif.Instances.C86_violated",
    "Verif.Instances.C86_growing_violated"
   ],
   "note": "C86_limit_partial: copying succeeds exactly if every needed instance is reached within 63 steps. C86_chain: a chain of generic functions is compiled if and only if it has at most 63. C86_violated: a chain of 64, which needs 64 instances, makes the compiler panic. C86_growing_violated: so does a function that calls itself at a larger type."
  },
  {
   "property": "C87",
   "status": "partial",
   "theorems": [
    "Verif.Instances.C87_recorded_types_partial"
   ],
   "note": "C87_recorded_types_partial: proved for the types of nodes and of callees if the needed instances have different names and hashes. The other tables (handlers, operations, lambdas, exhaustive cases) are copied by the same code and not modelled."
  },
  {
   "property": "C88",
   "status": "partial",
   "theorems": [
    "Verif.WasmIo.C88_output_partial",
    "Verif.WasmIo.C88_ends",
    "Verif.WasmIo.C88_memory",
    "Verif.WasmIo.C88_no_room",
    "Verif.WasmIo.C88_violated",
    "Verif.WasmIo.C88_same_as_native",
    "Verif.WasmIo.C88_print_same_as_native",
    "Verif.WasmIo.C88_print_line_same_as_native"
   ],
   "note": "C88_ends, C88_memory, C88_no_room and the agreement with the native runtime: proved for all texts, memories and hosts. C88_output_partial: everything about the bytes written except that a call that returns has written all of them, which holds if the host makes progress each time. C88_violated: after an error of the host the call returns normally and the rest of the text is lost without a sign."
  },
  {
   "property": "C89",
   "status": "partial",
   "theorems": [
    "Verif.Fields.C89_values_partial",
    "Verif.Fields.C89_update_partial",
    "Verif.Fields.C89_update_violated"
   ],
   "note": "C89_values_partial: for all sequences of operations in which values are stored and struct fields read with the width of the field. C89_update_partial: record expressions with a base whose copied fields are eight bytes wide. C89_update_violated: with narrower copied fields the new object is written past its end, which overwrites the count of the object behind it."
  },
  {
   "property": "C90",
   "status": "partial",
   "theorems": [
    "Verif.WasmGc.C90_emittedModule_partial",
    "Verif.WasmGc.C90_erasedConstruction_violated",
    "Verif.WasmGc.C90_fieldAccessor_violated",
    "Verif.WasmGc.C90_capturedTuple_violated"
   ],
   "note": "C90_emittedModule_partial: for modules that reach records and constructors through their own types. Violated where the compiler itself reaches them through erased types: a construction typed anyref (C90_erasedConstruction_violated), a field read through structref (C90_fieldAccessor_violated), a record read from a field at its name (C90_capturedTuple_violated). Closures, arrays and strings are not covered."
  },
  {
   "property": "C91",
   "status": "partial",
   "theorems": [
    "Verif.WasmGc.C91_behaviour_partial"
   ],
   "note": "C91_behaviour_partial: for the modules of C90_emittedModule_partial (others may not validate), with straight-line bodies and calls. Missing: branches inside bodies, closures, arrays, strings, floats."
  },
  {
   "property": "C92",
   "status": "partial",
   "theorems": [
    "Verif.WasmCall.C92_calls_partial",
    "Verif.WasmCall.C92_compiles",
    "Verif.WasmCall.C92_indirectCall_violated"
   ],
   "note": "C92_calls_partial: direct calls, tail calls and indirect tail calls; C92_compiles: well-formed modules compile. C92_indirectCall_violated: every module that has an indirect call that is not a tail call and compiles is invalid, because the placeholder type index 0 (a struct type) is emitted instead of the index looked up. Missing: values other than integers and function references."
  },
  {
   "property": "C93",
   "status": "partial",
   "theorems": [
    "Verif.Hover.C93_leaf_partial",
    "Verif.Hover.C93_range",
    "Verif.Hover.C93_operator_violated",
    "Verif.Hover.C93_lastLet_violated"
   ],
   "note": "C93_leaf_partial: offsets inside a variable, a literal or a constructor without arguments; C93_range: every answer's range contains the offset and is the range of a piece of syntax. C93_operator_violated: on an operator (or anywhere between the parts of a method call) the type of the called function is shown for the whole expression; C93_lastLet_violated: inside a let that ends a block the type Nil is shown for the bound name. Missing: offsets whose innermost expression is a call, case, block, lambda, tuple, list, operator, where the index has no entry."
  },
  {
   "property": "C94",
   "status": "partial",
   "theorems": [
    "Verif.SigHelp.C94_activeParameter_partial",
    "Verif.SigHelp.C94_noAnswer_violated"
   ],
   "note": "C94_activeParameter_partial: right wherever the argument list of the call is in a field called arguments. C94_noAnswer_violated: no call of the grammar has such a field (the front end says so and looks the list up by kind), and then there is no answer for any file and position."
  },
  {
   "property": "C95",
   "status": "partial",
   "theorems": [
    "Verif.Report.C95_frontError",
    "Verif.Report.C95_check",
    "Verif.Report.C95_sound_partial",
    "Verif.Report.C95_checkSound_partial",
    "Verif.Report.C95_literal_violated",
    "Verif.Report.C95_field_violated",
    "Verif.Report.C95_warning_violated"
   ],
   "note": "C95_frontError, C95_check: errors of the front end, and all errors when checking only, are reported and stop the compilation. C95_sound_partial, C95_checkSound_partial: programs with nothing wrong are compiled to what they mean. C95_literal_violated: a literal out of range is an error that no one reads; the program is written without the call it is in. C95_field_violated: the same for a record without one of its fields. C95_warning_violated: checking fails on a mere warning, compiling does not show it."
  },
  {
   "property": "C96",
   "status": "partial",
   "theorems": [
    "Verif.Report.C96_sorted",
    "Verif.Report.C96_stable",
    "Verif.Report.C96_marks_partial",
    "Verif.Report.C96_marks_violated"
   ],
   "note": "C96_sorted, C96_stable: order. C96_marks_partial: sources that are ASCII up to the end of the span. C96_marks_violated: the reporting library counts characters and is given byte offsets, so the marks are in the right place exactly if everything before is ASCII."
  },
  {
   "property": "C97",
   "status": "partial",
   "theorems": [
    "Verif.Const.C97_wasm",
    "Verif.Const.C97_wasmCompiles",
    "Verif.Const.C97_wasmData",
    "Verif.Const.C97_native_partial",
    "Verif.Const.C97_nativeCompiles",
    "Verif.Const.C97_nativeData",
    "Verif.Const.C97_native_violated"
   ],
   "note": "C97_wasm, C97_wasmCompiles, C97_wasmData: WebAssembly, in full. C97_nativeCompiles, C97_nativeData: native. C97_native_partial: native code of literals, when no function of the program is called __tribute_rodata_N or __tribute_alloc. C97_native_violated: with a function of such a name a literal is made of its machine code."
  },
  {
   "property": "C98",
   "status": "partial",
   "theorems": [
    "Verif.Names.C98_wasm_partial",
    "Verif.Names.C98_native_partial",
    "Verif.Names.C98_wasmOutput_violated",
    "Verif.Names.C98_wasmStart_violated",
    "Verif.Names.C98_nativeInit_violated",
    "Verif.Names.C98_nativeMain_violated"
   ],
   "note": "C98_wasm_partial, C98_native_partial: programs without functions of the compiler's names compile and write exactly what their source writes. Missing: programs with such names, for which it is false: C98_wasmOutput_violated (fd_write), C98_wasmStart_violated (_start), C98_nativeInit_violated (__tribute_init), C98_nativeMain_violated (_tribute_main)."
  },
  {
   "property": "C99",
   "status": "partial",
   "theorems": [
    "Verif.Convert.C99_legality",
    "Verif.Convert.C99_order",
    "Verif.Convert.C99_shieldsLegal",
    "Verif.Convert.C99_success",
    "Verif.Convert.C99_failure",
    "Verif.Convert.C99_fixpoint_partial",
    "Verif.Convert.C99_unfinished",
    "Verif.Convert.C99_complete",
    "Verif.Convert.C99_rounds_partial",
    "Verif.Convert.C99_idle",
    "Verif.Convert.C99_shielded",
    "Verif.Convert.C99_rounds_violated"
   ],
   "note": "Rules (C99_legality, C99_order, C99_shieldsLegal), success and failure (C99_success, C99_failure), completeness at a fixpoint (C99_complete) and what is left alone (C99_idle, C99_shielded) are proved in full. That patterns are applied until none applies holds when the driver reports a fixpoint (C99_fixpoint_partial), which it reaches when patterns make progress and need fewer rounds than allowed (C99_rounds_partial); it is false beyond ten rounds (C99_rounds_violated)."
  },
  {
   "property": "C100",
   "status": "partial",
   "theorems": [
    "Verif.Validate.C100_scope",
    "Verif.Validate.C100_missingUse",
    "Verif.Validate.C100_madeUpUse",
    "Verif.Validate.C100_shapes",
    "Verif.Validate.C100_arity",
    "Verif.Validate.C100_accepted_partial",
    "Verif.Validate.C100_order_violated",
    "Verif.Validate.C100_native_violated",
    "Verif.Validate.C100_twice_violated",
    "Verif.Validate.C100_nested_violated"
   ],
   "note": "What each validator reports is proved exactly (C100_scope, C100_missingUse, C100_madeUpUse, C100_shapes, C100_arity), and so is what acceptance means (C100_accepted_partial). The last sentence is false: the order within a region is not checked (C100_order_violated), clif functions are not looked at (C100_native_violated), a use recorded twice passes (C100_twice_violated), and calls in nested modules are not counted (C100_nested_violated)."
  },
  {
   "property": "C101",
   "status": "partial",
   "theorems": [
    "Verif.PassMgr.C101_chain",
    "Verif.PassMgr.C101_honest",
    "Verif.PassMgr.C101_checked",
    "Verif.PassMgr.C101_success",
    "Verif.PassMgr.C101_failure",
    "Verif.PassMgr.C101_schedule_partial",
    "Verif.PassMgr.C101_erased_violated",
    "Verif.PassMgr.C101_added_violated",
    "Verif.PassMgr.C101_blame_partial",
    "Verif.PassMgr.C101_unverified_violated",
    "Verif.PassMgr.C101_blame_violated"
   ],
   "note": "How the IR goes from pass to pass, when and by which verifier it is checked, and what success and failure mean hold for all managers and passes (C101_chain, C101_honest, C101_checked, C101_success, C101_failure). The schedule is exact for passes that do not add or remove the operations managers look for (C101_schedule_partial); otherwise a pass runs on an erased function (C101_erased_violated) or not on an added one (C101_added_violated). Blame is right when passes leave their own operation in place (C101_blame_partial); otherwise nothing is verified (C101_unverified_violated) and a later pass is blamed (C101_blame_violated)."
  },
  {
   "property": "C102",
   "status": "proved",
   "theorems": [
    "Verif.BackendReady.C102_accepts",
    "Verif.BackendReady.C102_error",
    "Verif.BackendReady.C102_noLogicalTypes"
   ],
   "note": "C102_accepts (if and only if), C102_error (errors are true), C102_noLogicalTypes. The hypothesis `Interned` is that types refer to types interned before them."
  },
  {
   "property": "C103",
   "status": "partial",
   "theorems": [
    "Verif.BackendReady.C103_native",
    "Verif.BackendReady.C103_wasm",
    "Verif.BackendReady.C103_wasmValues",
    "Verif.BackendReady.C103_bytes_violated"
   ],
   "note": "C103_native, C103_wasm and C103_wasmValues: what is accepted can be emitted. The other direction is false: C103_bytes_violated."
  },
  {
   "property": "C104",
   "status": "proved",
   "theorems": [
    "Verif.Analyses.C104_get",
    "Verif.Analyses.C104_cached",
    "Verif.Analyses.C104_fresh",
    "Verif.Analyses.C104_once",
    "Verif.Analyses.C104_len",
    "Verif.Analyses.C104_inline",
    "Verif.Analyses.C104_inlineEnds"
   ],
   "note": "C104_get, C104_cached, C104_fresh, C104_once, C104_len over all histories; C104_inline and C104_inlineEnds for the inliner, with one round of the applicator as a parameter (that a round without changes leaves the program alone is C99_idle)."
  },
  {
   "property": "C105",
   "status": "partial",
   "theorems": [
    "Verif.PrimNorm.C105_each",
    "Verif.PrimNorm.C105_fixpoint",
    "Verif.PrimNorm.C105_results",
    "Verif.PrimNorm.C105_signatures",
    "Verif.PrimNorm.C105_callAgrees_partial",
    "Verif.PrimNorm.C105_tailCall_partial",
    "Verif.PrimNorm.C105_callAgrees_violated",
    "Verif.PrimNorm.C105_callAttributes_violated",
    "Verif.PrimNorm.C105_blockArguments_violated",
    "Verif.PrimNorm.C105_tailCall_violated"
   ],
   "note": "C105_each, C105_results, C105_signatures, C105_fixpoint for all well-formed modules. False of the code: calls of functions that return core.i1 (C105_callAgrees_violated, otherwise C105_callAgrees_partial), attributes of calls (C105_callAttributes_violated), arguments of blocks other than entry blocks (C105_blockArguments_violated), recorded signatures of indirect tail calls (C105_tailCall_violated, otherwise C105_tailCall_partial)."
  },
  {
   "property": "C106",
   "status": "partial",
   "theorems": [
    "Verif.PreludeOps.C106_list",
    "Verif.PreludeOps.C106_ownFunction",
    "Verif.PreludeOps.C106_io",
    "Verif.PreludeOps.C106_listResolved_partial",
    "Verif.PreludeOps.C106_ioResolved_partial",
    "Verif.PreludeOps.C106_ioOwnFunction_violated",
    "Verif.PreludeOps.C106_listDangling_violated",
    "Verif.PreludeOps.C106_ioDangling_violated"
   ],
   "note": "C106_list, C106_ownFunction, C106_io over all modules. False of the code: input and output go by name alone (C106_ioOwnFunction_violated); references other than calls with the right number of arguments are left dangling (C106_listDangling_violated, C106_ioDangling_violated; otherwise C106_listResolved_partial, C106_ioResolved_partial)."
  },
  {
   "property": "C107",
   "status": "proved",
   "theorems": [
    "Verif.Perform.C107_meaning",
    "Verif.Perform.C107_complete",
    "Verif.Perform.C107_total",
    "Verif.Perform.C107_ends",
    "Verif.Perform.C107_kept",
    "Verif.Perform.C107_again",
    "Verif.Perform.C107_once",
    "Verif.Perform.C107_erased"
   ],
   "note": "C107_meaning for all interpretations of handlers and other operations; C107_complete, C107_ends, C107_kept, C107_again, C107_once, C107_erased; C107_total: the assertion of the old form does not fail for at most one argument."
  },
  {
   "property": "C108",
   "status": "partial",
   "theorems": [
    "Verif.NativeCall.C108_behaviour",
    "Verif.NativeCall.C108_complete",
    "Verif.NativeCall.C108_fits_partial",
    "Verif.NativeCall.C108_indirect",
    "Verif.NativeCall.C108_signatures",
    "Verif.NativeCall.C108_again",
    "Verif.NativeCall.C108_tail_violated"
   ],
   "note": "C108_behaviour, C108_complete, C108_signatures, C108_indirect, C108_again over all modules and conversions. Agreement of types after the pass is false for tail calls through values, whose recorded signature is not converted (C108_tail_violated); otherwise C108_fits_partial."
  },
  {
   "property": "C109",
   "status": "partial",
   "theorems": [
    "Verif.Display.C109_types_partial",
    "Verif.Display.C109_label_partial",
    "Verif.Display.C109_effects_violated",
    "Verif.Display.C109_pure_violated"
   ],
   "note": "False for the effects of function types inside types, which are not shown (C109_effects_violated), and for a declared empty list of effects, shown like none (C109_pure_violated). Otherwise C109_types_partial and C109_label_partial, for all types and declarations; a missing result type and a result of _ are shown alike by intent."
  },
  {
   "property": "C110",
   "status": "partial",
   "theorems": [
    "Verif.DocHelp.C110_documentation_partial",
    "Verif.DocHelp.C110_only",
    "Verif.DocHelp.C110_nested_violated"
   ],
   "note": "False if a function of the same name is defined earlier in a nested module, whose documentation is then shown (C110_nested_violated). Otherwise C110_documentation_partial for all files; C110_only without restriction."
  },
  {
   "property": "C111",
   "status": "partial",
   "theorems": [
    "Verif.Complete.C111_complete_partial",
    "Verif.Complete.C111_sound",
    "Verif.Complete.C111_once_partial",
    "Verif.Complete.C111_once_violated",
    "Verif.Complete.C111_words_violated",
    "Verif.Complete.C111_imported_violated"
   ],
   "note": "False for names of modules and names imported other than Io (C111_imported_violated), for the words extern and op (C111_words_violated), and a name is offered twice if Io is imported before a declaration of that name (C111_once_violated). C111_complete_partial for what is declared at the top level, C111_sound without restriction, C111_once_partial for files without clashes. Local variables and parameters are not offered by the code and not modelled."
  },
  {
   "property": "C112",
   "status": "proved",
   "theorems": [
    "Verif.Intern.C112_equal",
    "Verif.Intern.C112_text",
    "Verif.Intern.C112_order",
    "Verif.Intern.C112_lookup",
    "Verif.Intern.C112_exclusive",
    "Verif.Intern.C112_progress",
    "Verif.Intern.C112_ends"
   ],
   "note": "C112_equal, C112_text, C112_order, C112_lookup, C112_exclusive, C112_progress, C112_ends over all reachable states of any number of threads. The lock is modelled by its contract; closures given to with_str that intern symbols themselves are excluded (they would wait for their own read lock; no caller in the repository does that)."
  },
  {
   "property": "C113",
   "status": "proved",
   "theorems": [
    "Verif.TailResume.C113_fits",
    "Verif.TailResume.C113_runs",
    "Verif.TailResume.C113_complete",
    "Verif.TailResume.C113_again",
    "Verif.TailResume.C113_arms"
   ],
   "note": "C113_fits, C113_runs, C113_complete, C113_again, C113_arms over all nested operations. The pass asks only that the result of the resumption is among the values the arm ends with; arms end with one value."
  },
  {
   "property": "C114",
   "status": "partial",
   "theorems": [
    "Verif.SourcePath.C114_name_partial",
    "Verif.SourcePath.C114_apart",
    "Verif.SourcePath.C114_panic_violated",
    "Verif.SourcePath.C114_cut_violated",
    "Verif.SourcePath.C114_relative_violated"
   ],
   "note": "False: spaces, letters outside ASCII and lone percent signs make the compiler panic (C114_panic_violated), number signs and question marks cut the name (C114_cut_violated), a relative path is taken for an absolute one (C114_relative_violated). C114_name_partial for paths of characters that stand for themselves in a URI; C114_apart for absolute paths."
  }
 ]
}