{
 "claims": [
  {
   "property": "C01",
   "status": "proved",
   "theorems": [
    "Silice.C01_clog2_exact",
    "Silice.C01_clog2_nonpos",
    "Silice.C01_memory_address_reaches_all",
    "Silice.C01_memory_of_one_entry_has_no_address_bit",
    "Silice.C01_inlined_constant_fits"
   ],
   "note": "Least exponent for every n>0, -1 otherwise; memory address widths. Finding: one-entry memory gets a 0-bit address."
  },
  {
   "property": "C02",
   "status": "partial",
   "theorems": [
    "Silice.C02_binary_register_holds_every_state",
    "Silice.C02_onehot_register_holds_every_state_partial",
    "Silice.C02_onehot_undefined_from_32_states",
    "Silice.C02_encodings_distinct",
    "Silice.C02_caller_register_holds_every_id",
    "Silice.C02_width_undefined_beyond"
   ],
   "note": "Binary encoding and caller ids proved up to 2^30 (limit of int shifts). One-hot proved up to 31 states; negation from 32 states on (1<<31 leaves int)."
  },
  {
   "property": "C03",
   "status": "proved",
   "theorems": [
    "Silice.C03_member_layout",
    "Silice.C03_members_tile",
    "Silice.C03_member_inside",
    "Silice.C03_first_member_is_most_significant",
    "Silice.C03_repeated_name_leaves_bits_unreachable"
   ],
   "note": "Tiling of a bitfield by its members proved for distinct member names; with a repeated name some bits are unreachable (finding, witness proved)."
  },
  {
   "property": "C04",
   "status": "partial",
   "theorems": [
    "Silice.C04_initialiser_roundtrip_partial",
    "Silice.C04_accepted_iff",
    "Silice.C04_sized_constant_of_wrong_width_corrupts",
    "Silice.C04_negative_unsized_is_malformed"
   ],
   "note": "Initialiser round trip proved for every constant that fits its member (a sized constant must have the width of the member); a sized constant of a different width is not rejected and a negative unsized value is emitted malformed (witnesses proved)."
  },
  {
   "property": "C05",
   "status": "proved",
   "theorems": [
    "Silice.C05_parts_read_per_bit",
    "Silice.C05_double_cover_is_error",
    "Silice.C05_whole_binding",
    "Silice.C05_whole_then_part_undetected"
   ],
   "note": "Reads of bit-wise bound variables proved for every set of disjoint part bindings; whole-then-part double binding is not detected (finding, witness proved)."
  },
  {
   "property": "C06",
   "status": "proved",
   "theorems": [
    "Silice.C06_operator_width_sufficient",
    "Silice.C06_expression_width_sufficient",
    "Silice.C06_unsigned_sub_not_exact",
    "Silice.C06_mixed_add_not_exact",
    "Silice.C06_negation_not_exact",
    "Silice.C06_product_with_unsized_constant_narrow",
    "Silice.C06_unary_width_sufficient"
   ],
   "note": "All exact operators, all widths and values, arbitrary nesting. Limits (unsigned subtraction, mixed signedness, negation, unsized constants) are shown by witness theorems."
  },
  {
   "property": "C07",
   "status": "partial",
   "theorems": [
    "Silice.C07_concat_width",
    "Silice.C07_part_types",
    "Silice.C07_replication_once_partial",
    "Silice.C07_replication_ignores_count"
   ],
   "note": "Concatenation width proved; replication {N{..}} ignores N, so only N=1 is provable and the negation is proved for all other N."
  },
  {
   "property": "C08",
   "status": "proved",
   "theorems": [
    "Silice.C08_literal_preserved",
    "Silice.C08_reading_unique",
    "Silice.C08_rewrite_idempotent",
    "Silice.C08_isNumber_sized_iff",
    "Silice.C08_accepted_digits_have_value",
    "Silice.C08_bad_digit_not_rejected",
    "Silice.C08_inlined_sized_constant",
    "Silice.C08_inlined_positive_constant"
   ],
   "note": "Sign, width, base and digits preserved for every literal text. Finding: digits outside of the base are not rejected on the emission path (witness proved)."
  },
  {
   "property": "C09",
   "status": "partial",
   "theorems": [
    "Silice.C09_accepted_size",
    "Silice.C09_list_entries",
    "Silice.C09_accepted_iff",
    "Silice.C09_reset_values_partial",
    "Silice.C09_short_init_reset_undefined",
    "Silice.C09_pad_uninitialized_reset_undefined",
    "Silice.C09_empty_autosize_accepted"
   ],
   "note": "Size, order, padding and acceptance proved for all initialisers; the reset code reads entries that do not exist for short strings and pad(uninitialized), and an empty auto-sized table is accepted (witnesses proved)."
  },
  {
   "property": "C10",
   "status": "proved",
   "theorems": [
    "Silice.C10_directions_resolved",
    "Silice.C10_connection_unique"
   ],
   "note": "Directions and order proved for every binding list and port set."
  },
  {
   "property": "C11",
   "status": "partial",
   "theorems": [
    "Silice.C11_explicit_bindings_kept",
    "Silice.C11_autobound_ports",
    "Silice.C11_at_most_once_partial",
    "Silice.C11_clock_bound_twice",
    "Silice.C11_chosen_directions_valid"
   ],
   "note": "Explicit bindings kept and auto-bound ports characterised for all inputs; at-most-once fails for an input named clock, reset excepted (witness proved)."
  },
  {
   "property": "C12",
   "status": "proved",
   "theorems": [
    "Silice.C12_checks_pass_iff"
   ],
   "note": "The check passes exactly when the English conditions hold."
  },
  {
   "property": "C13",
   "status": "partial",
   "theorems": [
    "Silice.C13_names_unique_partial",
    "Silice.C13_reuse_refused",
    "Silice.C13_same_block_redeclaration_refused",
    "Silice.C13_name_reused_in_other_block",
    "Silice.C13_subroutine_parameter_refused",
    "Silice.C13_group_port_collision",
    "Silice.C13_label_prefix_captures_input",
    "Silice.C13_variable_named_as_group"
   ],
   "note": "Invariant over all declaration histories for plain ports, variables, memories, instances, subroutines. Three ways to get a double name are proved: ports of groups/interfaces, labels that prefix to a port name, variables named as groups."
  },
  {
   "property": "C14",
   "status": "partial",
   "theorems": [
    "Silice.C14_accepted_iff_partial",
    "Silice.C14_no_parameters",
    "Silice.C14_matches_complete",
    "Silice.C14_plain_arguments",
    "Silice.C14_underscore_member_not_matched",
    "Silice.C14_member_used_twice"
   ],
   "note": "Acceptance and result proved for all argument and parameter lists when group members have no underscore in their names; a member with an underscore is never matched (witness proved)."
  },
  {
   "property": "C15",
   "status": "proved",
   "theorems": [
    "Silice.C15_terminates",
    "Silice.C15_accepted_iff_expands",
    "Silice.C15_search_order",
    "Silice.C15_errors_exact",
    "Silice.C15_cycle_under_new_names_undetected"
   ],
   "note": "Termination, exact characterisation of success by a textual expansion without any notion of already included file, and exactness of both errors. Finding: a file reached under ever new relative names is never reported as cyclic (proved on an infinite family of names)."
  },
  {
   "property": "C16",
   "status": "proved",
   "theorems": [
    "Silice.C16_assembled_line_origin",
    "Silice.C16_two_stages",
    "Silice.C16_inner_line_reports_next_call",
    "Silice.C16_negative_position",
    "Silice.C16_empty_map_undefined"
   ],
   "note": "Both stages, for every line recorded. Findings proved: lines inside a text written by one call are reported at the next call, empty maps are read out of bounds."
  },
  {
   "property": "C17",
   "status": "proved",
   "theorems": [
    "Silice.C17_considers_first_branches",
    "Silice.C17_words_considered",
    "Silice.C17_error_iff_unmatched",
    "Silice.C17_complete_statements_neutral",
    "Silice.C17_lines",
    "Silice.C17_keyword_stuck_to_parenthesis"
   ],
   "note": "Tracker state equals the nesting structure for every sequence of words. Finding: keywords stuck to a parenthesis are not recognised."
  },
  {
   "property": "C18",
   "status": "proved",
   "theorems": [
    "Silice.C18_numbering",
    "Silice.C18_terminates",
    "Silice.C18_deterministic",
    "Silice.C18_entry_is_one"
   ],
   "note": "renumberStates terminates on every finite block graph and gives reached states distinct consecutive indices from 1, assigns other reached blocks to a state they are executed in, and leaves unreached blocks unnumbered. preventIfElseCodeDup is modelled but the numbering theorem is about one call of renumberStates on any graph."
  },
  {
   "property": "C19",
   "status": "partial",
   "theorems": [
    "Silice.C19_fuel_irrelevant",
    "Silice.C19_terminates",
    "Silice.C19_stays_on_states",
    "Silice.C19_steps_kept",
    "Silice.C19_idempotent",
    "Silice.C19_skip_sound",
    "Silice.C19_skip_complete",
    "Silice.C19_same_executions",
    "Silice.C19_counterexample_selfloop"
   ],
   "note": "Skipping preserves executions (both directions) and terminates when no cycle of empty blocks exists. The compiler does not establish that hypothesis: C19_counterexample_selfloop shows that `L: goto L;` makes fastForward loop forever."
  },
  {
   "property": "C20",
   "status": "partial",
   "theorems": [
    "Silice.C20_counterexample_no_return",
    "Silice.C20_entries_distinct",
    "Silice.C20_targets_have_entries",
    "Silice.C20_exactly_one_entry",
    "Silice.C20_emission_succeeds",
    "Silice.C20_code_after_if"
   ],
   "note": "Proved for well-formed graphs (WellFormed): distinct entries, one per visited state, every assigned index has an entry, emission succeeds; C21_programs shows that the graphs of structured programs are well-formed after generateStates. The compiler does not establish that callees return when goto is used: C20_counterexample_no_return (failed assertion)."
  },
  {
   "property": "C21",
   "status": "partial",
   "theorems": [
    "Silice.C21_counterexample_switch",
    "Silice.C21_counterexample_last_block",
    "Silice.C21_counterexample_stale_label",
    "Silice.C21_one_cycle",
    "Silice.C21_lockstep",
    "Silice.C21_never_undefined",
    "Silice.C21_compiled",
    "Silice.C21_programs",
    "Silice.C21_counterexample_switch_return"
   ],
   "note": "Lockstep of the generated hardware with the source for any number of cycles, on well-formed graphs without pipelines; C21_programs proves that every program of structured statements (steps, if, while, break, switch, calls, joins, returns in subroutines) that is gathered into blocks gives, with the states added by generateStates, such a graph, provided switches that need it have a default. Not for all programs: counterexamples for a switch without default containing steps or directly followed by return, a switch last in the algorithm ending in an empty step, and a label in a conditional jumped to later. goto and `return` as an instruction of the main algorithm are not in C21_programs."
  },
  {
   "property": "C22",
   "status": "proved",
   "theorems": [
    "Silice.C22_counterexample_recursion",
    "Silice.C22_return_goes_back",
    "Silice.C22_return_has_call"
   ],
   "note": "For all executions of machines without recursive calls, at any nesting depth. C22_counterexample_recursion shows the hypothesis is needed (recursion is accepted by the compiler)."
  },
  {
   "property": "C23",
   "status": "partial",
   "theorems": [
    "Silice.C23_carried_iff",
    "Silice.C23_value_of_own_item",
    "Silice.C23_read_sees_previous_stage",
    "Silice.C23_first_register",
    "Silice.C23_items_in_order_partial",
    "Silice.C23_capture",
    "Silice.C23_copy_is_private"
   ],
   "note": "Which variables are carried, over which stages, and (stages without state machines) that every stage sees exactly the value of its own item. For stages that are state machines the order of items is proved as long as the branch holding the pipeline stays taken while the first stage is stalled (see C26). How the accesses of a stage are collected from the parse tree is not modelled."
  },
  {
   "property": "C24",
   "status": "proved",
   "theorems": [
    "Silice.C24_each_stage_once",
    "Silice.C24_writer_first",
    "Silice.C24_overtaken_only_when_waiting",
    "Silice.C24_natural_order"
   ],
   "note": "Order is a permutation, writers come first, a stage is overtaken only while waiting for a value, natural order without constraints."
  },
  {
   "property": "C25",
   "status": "proved",
   "theorems": [
    "Silice.C25_fails_iff_cycle"
   ],
   "note": "Failure of the selection loop is equivalent to a cycle of the relation \"feeds\"."
  },
  {
   "property": "C26",
   "status": "partial",
   "theorems": [
    "Silice.C26_in_order_no_loss_no_duplicate_partial",
    "Silice.C26_started_once_each_partial",
    "Silice.C26_one_item_at_a_time",
    "Silice.C26_counterexample_disabled_while_stalled"
   ],
   "note": "Transition system of index/full/stall registers and triggers; what a stage finishes is what the next one starts with, for every stall and duration history. Fails (counterexample) when the pipeline sits in a conditional that becomes false while the first stage is stalled: the item advances although the stage did not finish it."
  },
  {
   "property": "C27",
   "status": "proved",
   "theorems": [
    "Silice.C27_accepted_iff"
   ],
   "note": "Acceptance is equivalent to the absence of conflicts between the access sets of the stages; how these sets are collected from the parse tree is not modelled."
  },
  {
   "property": "C28",
   "status": "proved",
   "theorems": [
    "Silice.C28_closure",
    "Silice.C28_terminates",
    "Silice.C28_instruction",
    "Silice.C28_conditionals_partial"
   ],
   "note": "Closure equals reachability and ends; for code with conditionals the recorded dependencies cover every path when no variable is assigned in two branches or again in a branch (partial theorem)."
  },
  {
   "property": "C29",
   "status": "partial",
   "theorems": [
    "Silice.C29_accepted_has_no_self_dependency",
    "Silice.C29_single_assignment_accepted",
    "Silice.C29_verdict",
    "Silice.C29_conditionals_partial",
    "Silice.C29_conditionals_verdict",
    "Silice.C29_counterexample_spurious",
    "Silice.C29_counterexample_branch",
    "Silice.C29_counterexample_both",
    "Silice.C29_counterexample_part"
   ],
   "note": "Sequences: accepted code has no self-dependency on any data-flow path. Code with conditionals: proved when a variable assigned in a branch is not assigned before the conditional or in another branch; counterexamples (merge drops dependencies, part selects, spurious rejections) otherwise."
  },
  {
   "property": "C30",
   "status": "partial",
   "theorems": [
    "Silice.C30_temporary_written_before_read_partial",
    "Silice.C30_register_kept_partial",
    "Silice.C30_counterexample_terminated",
    "Silice.C30_counterexample_while",
    "Silice.C30_counterexample_bitfield",
    "Silice.C30_counterexample_output_not_held"
   ],
   "note": "Holds for code made of assignments and conditionals where every state's code runs to its end and bit-field members are not assigned separately; counterexamples show the analysis misses the termination state, the exit of a loop followed by a state, bit-field member assignment and outputs of units without states."
  },
  {
   "property": "C31",
   "status": "partial",
   "theorems": [
    "Silice.C31_inlined_reads_partial",
    "Silice.C31_literal_partial",
    "Silice.C31_counterexample_mixed",
    "Silice.C31_counterexample_literal",
    "Silice.C31_code_partial",
    "Silice.C31_chosen_partial"
   ],
   "note": "Code with conditionals, for the variables the compiler chooses, where a variable read before any path gives it a value is assigned at most once on any path; and literals that fit the width. Counterexamples for both conditions. Variables already temporary before the first pass, part accesses and the always blocks around the states are not in the choice."
  },
  {
   "property": "C32",
   "status": "partial",
   "theorems": [
    "Silice.C32_classes",
    "Silice.C32_register_when_needed_partial",
    "Silice.C32_total",
    "Silice.C32_bound",
    "Silice.C32_programs"
   ],
   "note": "Complete decision table on any graph; for every gathered program (C32_programs, no condition on the graph) a written variable is a temporary exactly when no path needs its value from before. On arbitrary graphs a condition is needed (C33_counterexample_join). Missing: partial assignments are counted as whole ones (C33_counterexample_part)."
  },
  {
   "property": "C33",
   "status": "partial",
   "theorems": [
    "Silice.C33_incoming_reads_partial",
    "Silice.C33_recorded_only_if_needed",
    "Silice.C33_terminates",
    "Silice.C33_all_terminates",
    "Silice.C33_assignment_partial",
    "Silice.C33_counterexample_join",
    "Silice.C33_counterexample_part",
    "Silice.C33_counterexample_index",
    "Silice.C33_programs"
   ],
   "note": "Exact for every state of every gathered program (C33_programs), and on any graph where each block has a dominating predecessor; assignments record all names they depend on except the index of a table entry inside a part select or bit field (counterexample)."
  },
  {
   "property": "C34",
   "status": "partial",
   "theorems": [
    "Silice.C34_update_partial",
    "Silice.C34_defined",
    "Silice.C34_startup_untouched",
    "Silice.C34_reset_state",
    "Silice.C34_call_starts_fresh",
    "Silice.C34_autorun_start",
    "Silice.C34_idle_until_called",
    "Silice.C34_pipeline_reset",
    "Silice.C34_counterexample_short_table"
   ],
   "note": "All histories of reset and run, any combinational part, reset state, fresh start at each call, autorun start, pipelines emptied by reset. Missing: tables declared with fewer initial values than entries, for which the compiler itself reads out of bounds (counterexample)."
  },
  {
   "property": "C35",
   "status": "proved",
   "theorems": [
    "Silice.C35_done",
    "Silice.C35_done_drained",
    "Silice.C35_stays_done"
   ],
   "note": "done iff terminated (and not just reset, on autorun) and all stages idle and empty; equivalently every item that entered each pipeline was finished by its last stage."
  },
  {
   "property": "C36",
   "status": "partial",
   "theorems": [
    "Silice.C36_fixed_ports_keep_their_type",
    "Silice.C36_specialisation_wins",
    "Silice.C36_unspecialised_port_follows_binding_partial",
    "Silice.C36_sameas_port_follows_base",
    "Silice.C36_unbound_unspecialised_rejected",
    "Silice.C36_crossed_binding_wrong_width",
    "Silice.C36_case_collision"
   ],
   "note": "Precedence proved; the bound-variable rule fails when two parameterised ports are bound crosswise and names differing by case collide (witnesses proved)."
  },
  {
   "property": "C37",
   "status": "partial",
   "theorems": [
    "Silice.C37_resolution_partial",
    "Silice.C37_terminates",
    "Silice.C37_history_partial",
    "Silice.C37_counterexample_shadowing",
    "Silice.C37_cycle_never_ends"
   ],
   "note": "The resolution returns exactly the end of the chain and ends on acyclic chains; in every history of declarations without shadowing of a name the recorded type is the end of the chain in the source. Counterexample: a block that redeclares a name of the chain. Members of groups are not modelled."
  },
  {
   "property": "C38",
   "status": "partial",
   "theorems": [
    "Silice.C38_image",
    "Silice.C38_packed_unique",
    "Silice.C38_palette",
    "Silice.C38_refused",
    "Silice.C38_palette_refused",
    "Silice.C38_counterexample_zero",
    "Silice.C38_save_reverses",
    "Silice.C38_palette_round_trip",
    "Silice.C38_palette_entries",
    "Silice.C38_save_rectangular"
   ],
   "note": "Proved for every image, palette and depth between 1 and 8 per component, with uniqueness of the packed value and the round trip of palettes. Counterexample: depth 0 is accepted. save_table_as_image reverses the order of components with respect to get_palette_as_table. Reading image files is not modelled."
  },
  {
   "property": "C39",
   "status": "partial",
   "theorems": [
    "Silice.C39_address",
    "Silice.C39_memory",
    "Silice.C39_read",
    "Silice.C39_write",
    "Silice.C39_memory_access",
    "Silice.C39_report_write",
    "Silice.C39_report_read",
    "Silice.C39_refused",
    "Silice.C39_supported",
    "Silice.C39_counterexample_overflow"
   ],
   "note": "Addresses, selection at run time on the memory bus, reports on access and refusals, including the always block of the SoC. Memories above 2^30 bytes overflow a shift (counterexample). The C compiler and the processor are not modelled."
  },
  {
   "property": "C40",
   "status": "partial",
   "theorems": [
    "Silice.C40_partial",
    "Silice.C40_whole",
    "Silice.C40_accepted_iff",
    "Silice.C40_refused",
    "Silice.C40_counterexample"
   ],
   "note": "Proved when elements are whole pins, with the exact condition under which ports are accepted. Counterexamples: single bits of pins are not checked (same bit twice, bit after the whole pin, bits given different directions)."
  },
  {
   "property": "C41",
   "status": "partial",
   "theorems": [
    "Silice.C41_glue",
    "Silice.C41_order",
    "Silice.C41_private",
    "Silice.C41_signature",
    "Silice.C41_group",
    "Silice.C41_counterexample_scalar",
    "Silice.C41_counterexample_dropped"
   ],
   "note": "The text emitted is read back as a Verilog concatenation and shown to connect the bits of the group in order, with private wires for unused bits. Needs bit selects to be on pins of more than one bit; counterexamples: bit select on a pin of one bit, index out of range dropped."
  },
  {
   "property": "C42",
   "status": "proved",
   "theorems": [
    "Silice.C42_read_through",
    "Silice.C42_write_refused",
    "Silice.C42_terminates",
    "Silice.C42_storage"
   ],
   "note": "Names read = names reachable through wire definitions from used wires, for any (also cyclic) definitions; written wires are refused; the variables reached are kept (register or constant). What a wire expression reads is an input of the model."
  },
  {
   "property": "C43",
   "status": "partial",
   "theorems": [
    "Silice.C43_order_partial",
    "Silice.C43_counterexample_duplicates",
    "Silice.C43_known",
    "Silice.C43_counterexample_undefined"
   ],
   "note": "Proved when no mode is requested twice (all outcomes allowed by the C++ standard library considered). False for every request with a duplicate: the duplicates stay in the list, and sorting a list with two bmc is undefined behaviour."
  },
  {
   "property": "C44",
   "status": "partial",
   "theorems": [
    "Silice.C44_accepted_part_inside",
    "Silice.C44_inout_no_false_alarm_partial",
    "Silice.C44_inout_one_bit_overlap_reported_partial",
    "Silice.C44_inout_overlap_missed",
    "Silice.C44_inout_same_range_lost"
   ],
   "note": "Output part bindings proved inside the variable and disjoint; inout bindings are not checked for overlap and one of two same-range bindings is lost (witnesses proved)."
  },
  {
   "property": "C45",
   "status": "partial",
   "theorems": [
    "Silice.C45_partial",
    "Silice.C45_order_partial",
    "Silice.C45_none_left_partial",
    "Silice.C45_document",
    "Silice.C45_counterexample_order",
    "Silice.C45_counterexample_dollar"
   ],
   "note": "Proved for every order of the keys when keys are identifiers, values have neither % nor $, and next to a marker the text up to the next % has a non identifier character (true of all templates of the repository). False otherwise: two counterexamples."
  },
  {
   "property": "C46",
   "status": "partial",
   "theorems": [
    "Silice.C46_member_access_bits",
    "Silice.C46_part_select_bits_partial",
    "Silice.C46_part_select_escapes_member"
   ],
   "note": "Part select inside a bitfield member proved correct when it stays inside; a select that escapes the member is accepted (witness proved)."
  },
  {
   "property": "C47",
   "status": "proved",
   "theorems": [
    "Silice.C47_copies",
    "Silice.C47_accepted",
    "Silice.C47_accepted_copies",
    "Silice.C47_errors",
    "Silice.C47_sum"
   ],
   "note": "Model of gatherRepeatBlock in straight line code with blocks, declarations, circuitries. Copies in order with indices 0..n-1, refusal of nested and empty repeat blocks and of the index outside."
  },
  {
   "property": "C48",
   "status": "partial",
   "theorems": [
    "Silice.C48_partial",
    "Silice.C48_refused_partial",
    "Silice.C48_counts",
    "Silice.C48_counterexample_local",
    "Silice.C48_counterexample_swapped",
    "Silice.C48_counterexample_inout",
    "Silice.C48_counterexample_later"
   ],
   "note": "Proved for code that does not hide names in scope, gives one identifier to an inout and whose expressions given to inputs do not read variables assigned before in the block. False otherwise: four counterexamples. Straight line code, static circuitries, plain identifiers."
  },
  {
   "property": "C49",
   "status": "partial",
   "theorems": [
    "Silice.C49_hardware_follows_source_partial"
   ],
   "note": "Same restrictions as C30; assumes that variables made temporaries before the first pass are written before read (C33). Inlined definitions are C31. No subroutine calls inside the cycle code."
  },
  {
   "property": "C50",
   "status": "proved",
   "theorems": [
    "Silice.C50_call_and_join"
   ],
   "note": "Call restarts the callee at its first state with initial values, from any state; the caller leaves its waiting state exactly one cycle after the callee is terminated. Callee without pipelines, same clock, as required by the compiler."
  },
  {
   "property": "C51",
   "status": "partial",
   "theorems": [
    "Silice.C51_partial",
    "Silice.C51_counterexample"
   ],
   "note": "Proved when the expression reads no variable assigned before in the same block; false otherwise (counterexample: the temporary is computed at the beginning of the block)."
  },
  {
   "property": "C52",
   "status": "partial",
   "theorems": [
    "Silice.C52_cycles",
    "Silice.C52_deterministic",
    "Silice.C52_code_that_fits",
    "Silice.C52_one_cycle_algorithm",
    "Silice.C52_step",
    "Silice.C52_while_enter",
    "Silice.C52_while_iteration",
    "Silice.C52_while_exit_partial",
    "Silice.C52_counterexample_while_exit",
    "Silice.C52_if_cut",
    "Silice.C52_if_leaving",
    "Silice.C52_counterexample_one_branch",
    "Silice.C52_call",
    "Silice.C52_join",
    "Silice.C52_counterexample_dead_code"
   ],
   "note": "Simulation of the generated hardware by the cycle rules stated on statements, for every gathered program of structured statements (steps, if, while, break, switch, calls, joins, returns in subroutines), any data, any interference, any number of cycles; the rules are deterministic. Documented rules derived from them: code that fits, one cycle algorithms, steps, loops, conditionals, calls, joins. Partial: programs with code after a break or return are excluded (counterexample: a call never executed adds a cycle), switches that need it must have a default (C21), goto and pipelines are not covered; two documented rules fail (leaving a while that contains a break, conditionals with one side that reaches what follows)."
  },
  {
   "property": "C53",
   "status": "partial",
   "theorems": [
    "Silice.C53_whole_partial",
    "Silice.C53_source_deterministic",
    "Silice.C53_history_deterministic",
    "Silice.C53_history_partial",
    "Silice.C53_program_deterministic",
    "Silice.C53_program_partial"
   ],
   "note": "From statements and always blocks to flip-flops, for every structured program, with the storage chosen by determineAccess, determineUsage and the first pass (C53_program_partial; C53_whole_partial is the form for any always code): state index and registers follow the rules on cycles and the assignments of the source. C53_history_partial is the claim under any history of reset and run inputs from any power-up content, for autorun and callable algorithms. Partial: a temporary must not be assigned in part (C33_counterexample_part); a variable that loses its register must not be assigned through a bit field nor be read after the statements when a cycle may not assign it (counterexamples of C30); no pipelines or inlined expressions in this model."
  },
  {
   "property": "C54",
   "status": "partial",
   "theorems": [
    "Silice.C54_accepted_partial",
    "Silice.C54_executed_partial",
    "Silice.C54_counterexample_legacy",
    "Silice.C54_counterexample_legacy_accepted"
   ],
   "note": "For every always block of a unit: accepted iff its statements fit in one cycle; its code is written and executes the source statements in order with their effects, leaving the state alone. Partial: false in the older algorithm syntax (two counterexamples); return and goto in always blocks are not modelled."
  },
  {
   "property": "C55",
   "status": "partial",
   "theorems": [
    "Silice.C55_structure_partial",
    "Silice.C55_reading_unique",
    "Silice.C55_text_determines",
    "Silice.C55_counterexample_merged",
    "Silice.C55_counterexample_rejected",
    "Silice.C55_counterexample_chain",
    "Silice.C55_counterexample_replication"
   ],
   "note": "For every expression of the grammar and all names: Verilog reads the written text (longest token first, precedence table of the standard) as the same operators on the same operands; the reading is unique. Partial because the code is wrong otherwise: operators that merge when written one after the other (a & &b becomes a && b, five more pairs; a - -b and a && &b are rejected by Verilog), chains of ?: group differently, nested replications are not Verilog; all shown by counterexamples. Not modelled: sized constants as widths of part selects."
  },
  {
   "property": "C56",
   "status": "partial",
   "theorems": [
    "Silice.C56_read_last_written_partial",
    "Silice.C56_read_while_writing",
    "Silice.C56_latency_partial",
    "Silice.C56_default_configuration",
    "Silice.C56_masked_configuration",
    "Silice.C56_accepted_iff",
    "Silice.C56_outside",
    "Silice.C56_counterexample_mask_width",
    "Silice.C56_counterexample_grain",
    "Silice.C56_counterexample_simulation"
   ],
   "note": "C56_read_last_written_partial: all shipped templates, sizes, widths, contents and histories of clock edges of either port, bit by bit; partial because the write enables of masked templates have to be as wide as the data (a multiple of the grain): C56_counterexample_mask_width and C56_counterexample_grain show bits that no history can write otherwise. C56_default_configuration shows that nothing is required with the configuration of the compiler and no named template, C56_masked_configuration that the usual configuration suffices for masked templates. C56_latency_partial is the claim for the members driven by an algorithm, with and without delay. C56_counterexample_simulation: reading while writing differs between simulation and board."
  },
  {
   "property": "C57",
   "status": "partial",
   "theorems": [
    "Silice.C57_no_loop_partial",
    "Silice.C57_verdict",
    "Silice.C57_bindings_exact",
    "Silice.C57_delayed_bindings",
    "Silice.C57_registered_instances",
    "Silice.C57_counterexample_registered",
    "Silice.C57_counterexample_delayed",
    "Silice.C57_counterexample_parts",
    "Silice.C57_counterexample_overwritten",
    "Silice.C57_determined_partial",
    "Silice.C57_settles_partial"
   ],
   "note": "Proved for every unit and every path through its code: accepted implies no value of the cycle is computed from itself (instructions, immediate outputs of instances, tracked expressions, any mix and length); the search always ends; for bindings alone, accepted iff there is no loop; <:: only on variables held by flip-flops. Needs: each output/tracked expression has one origin; called/<reginputs> instances have no <: input or no output!; <:: expressions read no instance output; outputs bound to parts of the same variable have the same flags; variables assigned in a conditional not assigned before or in another branch. Witnesses show the first three of these last four are necessary (findings), C29 has those for the fourth. Tests of conditionals are not followed by the code nor here. Under the same hypotheses the values of a cycle are determined by what is held, and updating them in any fair order from any values reaches them and stays there. Instances without immediate outputs add no error to those of C29."
  },
  {
   "property": "C58",
   "status": "partial",
   "theorems": [
    "Silice.C58_stages_keep_meaning_partial",
    "Silice.C58_item_as_in_sequence_partial",
    "Silice.C58_counterexample_backward",
    "Silice.C58_counterexample_assigned_before"
   ],
   "note": "Proved for every accepted pipeline, order and number of cycles: each stage does what its code does from the values the documentation gives (item values from the previous stage, ^= and v= in the cycle, others as at the start of the cycle), variables end as assigned; and without pipeline operators each item gets what the stages give run in sequence, cycle t+s for stage s. Needs: a variable assigned by several stages is read by the last or later; temporary copies only in the last stage using them and assigned there first; a later reader of a ^= variable evaluated after it; a variable that a stage must not see changed is a register not assigned before the pipeline in the cycle, or read first (witnesses show the last two are necessary). Stateless pipelines only, not nested, not in conditionals; classification of copies is given."
  },
  {
   "property": "C59",
   "status": "partial",
   "theorems": [
    "Silice.C59_input_timing",
    "Silice.C59_refused",
    "Silice.C59_output_timing_partial",
    "Silice.C59_bound_output",
    "Silice.C59_algorithm_partial",
    "Silice.C59_design",
    "Silice.C59_latency",
    "Silice.C59_counterexample_bound_output"
   ],
   "note": "Every accepted binding gives the documented value (input_timing), exactly the bindings without effect are refused, outputs as declared, algorithms carry the values of their source (with the restrictions of C53), connections of whole designs, latencies add up. Missing: outputs bound to outputs of instances (counterexample), bindings to part of a variable, inouts."
  },
  {
   "property": "C60",
   "status": "partial",
   "theorems": [
    "Silice.C60_modules_distinct_partial",
    "Silice.C60_instantiated_written",
    "Silice.C60_counterexample_modules",
    "Silice.C60_imports",
    "Silice.C60_counterexample_import",
    "Silice.C60_signals_distinct_partial",
    "Silice.C60_counterexample_signals"
   ],
   "note": "Module names are distinct under conditions on names (no instance name is another one followed by an underscore, no `_M` in unit names), and so are the identifiers of a module (no output named done, and so on); the compiler checks none of these, and clashes are proved as counterexamples. Every module instantiated is written. Verilog and RISC-V modules are covered by the theorem on imports only."
  },
  {
   "property": "C61",
   "status": "partial",
   "theorems": [
    "Silice.C61_text_kept_partial",
    "Silice.C61_only_blanks_dropped",
    "Silice.C61_ends",
    "Silice.C61_counterexample_apostrophe",
    "Silice.C61_counterexample_backslash",
    "Silice.C61_counterexample_blanks",
    "Silice.C61_counterexample_stars",
    "Silice.C61_counterexample_stars_end",
    "Silice.C61_counterexample_glued",
    "Silice.C61_counterexample_tab",
    "Silice.C61_counterexample_slash",
    "Silice.C61_counterexample_order"
   ],
   "note": "For all sources of the form in Spec/LuaText.lean (no apostrophe or escaped backslash in strings, no misleading stars in comments, comments apart from words). Outside of it the claim is false, counterexamples proved. LibSL's parser is assumed, see Model/LuaText.lean."
  },
  {
   "property": "C62",
   "status": "partial",
   "theorems": [
    "Silice.C62_nothing_lost",
    "Silice.C62_ends",
    "Silice.C62_units_partial",
    "Silice.C62_names",
    "Silice.C62_counterexample_comment_unit",
    "Silice.C62_counterexample_comment_bracket",
    "Silice.C62_counterexample_apostrophe",
    "Silice.C62_counterexample_if",
    "Silice.C62_counterexample_name"
   ],
   "note": "Order and completeness of pieces for all sources. The program is the expected one for all sources made of units and text as in Spec/LuaUnits.lean; comments on Lua lines without brackets and unit words, Lua words apart; outside of it counterexamples are proved. LibSL's parser is assumed."
  },
  {
   "property": "C63",
   "status": "partial",
   "theorems": [
    "Silice.C63_accepted_iff",
    "Silice.C63_assignment_iff",
    "Silice.C63_read_partial",
    "Silice.C63_code_partial",
    "Silice.C63_counterexample_table",
    "Silice.C63_counterexample_bounds",
    "Silice.C63_counterexample_hidden",
    "Silice.C63_counterexample_field_macro"
   ],
   "note": "Model/Select: writeAccess and what it calls, checks of types of accesses, rewriteIdentifier, straight code. C63_accepted_iff and C63_assignment_iff: accepted exactly when the access makes sense, for identifiers of the source. C63_read_partial: values. C63_code_partial: any sequence of assignments changes exactly the designated bits. Partial: variables replaced by macros have to be read whole, since the code accepts members of macros (C63_counterexample_field_macro); what is assigned is held by a register or temporary. Counterexamples: whole tables, bounds, hidden names."
  },
  {
   "property": "C64",
   "status": "partial",
   "theorems": [
    "Silice.C64_call_accepted_iff",
    "Silice.C64_subroutine_accepted_iff",
    "Silice.C64_join_accepted_iff",
    "Silice.C64_return_accepted_iff",
    "Silice.C64_call_nothing",
    "Silice.C64_call_partial",
    "Silice.C64_subroutine_partial",
    "Silice.C64_inputs_hold",
    "Silice.C64_join_partial",
    "Silice.C64_return_partial",
    "Silice.C64_counterexample_sequential",
    "Silice.C64_counterexample_index",
    "Silice.C64_counterexample_input",
    "Silice.C64_counterexample_wire",
    "Silice.C64_counterexample_bound"
   ],
   "note": "Acceptance is characterised. Values of arguments and stored results are those of the source, for any number of parameters, when arguments do not read inputs that the call changes, and indices of receivers read no flip-flop written before in the cycle; counterexamples show that both are needed, and that joins may assign inputs, wires and bound variables. Receivers that became macros are not covered."
  },
  {
   "property": "C65",
   "status": "partial",
   "theorems": [
    "Silice.C65_driven_partial",
    "Silice.C65_free",
    "Silice.C65_next_cycle",
    "Silice.C65_read",
    "Silice.C65_split_partial",
    "Silice.C65_split_read",
    "Silice.C65_connection_text",
    "Silice.C65_statements_closed_partial",
    "Silice.C65_counterexample_whole_output",
    "Silice.C65_counterexample_part_output",
    "Silice.C65_counterexample_split_reader",
    "Silice.C65_counterexample_split_free",
    "Silice.C65_counterexample_split_listener",
    "Silice.C65_counterexample_combinational"
   ],
   "note": "Pins are proved to be driven by the unit they belong to and by nothing else, over whole hierarchies. Partial because the code violates the claim: an output bound to an inout drives nothing or is not Verilog, split inouts leave enables floating or contradicted, and inout! enables a cycle late (C65_counterexample_...)."
  },
  {
   "property": "C66",
   "status": "partial",
   "theorems": [
    "Silice.C66_unsigned_partial",
    "Silice.C66_signed_partial",
    "Silice.C66_signed_sized_partial",
    "Silice.C66_expression_partial",
    "Silice.C66_default_place",
    "Silice.C66_onehot_partial",
    "Silice.C66_onehot_zero",
    "Silice.C66_counterexample_mixed_signs",
    "Silice.C66_counterexample_mixed_sizes",
    "Silice.C66_counterexample_negative",
    "Silice.C66_counterexample_not_verilog",
    "Silice.C66_counterexample_onehot_missing",
    "Silice.C66_counterexample_onehot_several"
   ],
   "note": "Proved for unsigned variables with values that are not negative, for signed variables with numbers without size or with sized values no longer than the variable, for all expressions when values have one size, and for one-hot switches on distinct bits. Partial because mixed ways of writing values change the result, and one-hot switches are not checked (C66_counterexample_...)."
  },
  {
   "property": "C67",
   "status": "partial",
   "theorems": [
    "Silice.C67_group_ports",
    "Silice.C67_group_accepted",
    "Silice.C67_interface_accepted",
    "Silice.C67_group_combinational",
    "Silice.C67_interface_combinational",
    "Silice.C67_group_connected_partial",
    "Silice.C67_interface_connected_partial",
    "Silice.C67_interface_types_partial",
    "Silice.C67_counterexample_captured",
    "Silice.C67_counterexample_listed_twice",
    "Silice.C67_counterexample_missing_member",
    "Silice.C67_counterexample_order"
   ],
   "note": "Ports made from groups and interfaces are exactly those listed, acceptance is characterised. Connections are exactly those of members listed, provided no other port of the unit has the name of a member port and no member is listed with two kinds; types of interfaces provided names differ by more than case. Counterexamples: a port captured, a member listed twice, a missing member not reported, the order of ports."
  },
  {
   "property": "C68",
   "status": "partial",
   "theorems": [
    "Silice.C68_algorithm_partial",
    "Silice.C68_unit_partial",
    "Silice.C68_names_apart",
    "Silice.C68_unit_names_apart",
    "Silice.C68_source_partial",
    "Silice.C68_checked_partial",
    "Silice.C68_unit_checked_partial",
    "Silice.C68_names",
    "Silice.C68_parameter_like_variable",
    "Silice.C68_counterexample_use_before_declaration",
    "Silice.C68_counterexample_parameter_hides_local",
    "Silice.C68_counterexample_translated_twice",
    "Silice.C68_counterexample_made_name_used",
    "Silice.C68_counterexample_labels_collide",
    "Silice.C68_counterexample_parameter_variable",
    "Silice.C68_counterexample_stage_after_switch",
    "Silice.C68_counterexample_scope_unchecked"
   ],
   "note": "Reads and writes, for all algorithms and units, under two conditions: identifiers are not used before a declaration of them in the same sequence (and no stage of a pipeline declares after a switch), and names of the source do not meet names the compiler makes. The second is also given on the source alone (C68_names_apart, C68_source_partial). Uses of what is in scope pass the check, uses of what is declared nowhere around are refused, variables get different names, and parameters named like a variable declared before are refused. Counterexamples show that both conditions are needed; scopes are only checked in blocks that are states (C68_counterexample_scope_unchecked), the theorems hold whichever blocks are."
  },
  {
   "property": "C69",
   "status": "partial",
   "theorems": [
    "Silice.C69_values_partial",
    "Silice.C69_registers_partial",
    "Silice.C69_initializer_mandatory",
    "Silice.C69_counterexample_sameas",
    "Silice.C69_counterexample_sameas_input",
    "Silice.C69_counterexample_sameas_const"
   ],
   "note": "For every list of declarations, program, history of cycles and content of what is not initialised. The source is a store of known values: configuration gives `(v)`, reset and cycles without start give `=`, the start of a block gives `=` of the variables declared in it. If the source only reads known values, the module reads the same, whether variables are registers, temporaries or constants, as long as the way they are kept fits the program (temporaries are read after being given a value in the cycle, constants are not assigned). The option that forces initialisation at reset is covered. Missing: `sameas` with a value of its own (three counterexamples), tables initialised in part (C34), `auto` types, outputs, and macros (C31)."
  },
  {
   "property": "C70",
   "status": "partial",
   "theorems": [
    "Silice.C70_designated_partial",
    "Silice.C70_reset_port",
    "Silice.C70_counterexample_reset_not_given",
    "Silice.C70_counterexample_check_reset",
    "Silice.C70_counterexample_part_clock"
   ],
   "note": "All hierarchies, all modifiers, any values of other signals: registers, state machine, checks, memories, instances, bound inputs and out_clock of every unit have the designated clock and reset. Partial because the code is wrong when a unit in which nothing needs a reset uses it, and when its own clock or reset is bound in part (counterexamples); whole and part bindings of one variable are excluded (C05)."
  },
  {
   "property": "C71",
   "status": "partial",
   "theorems": [
    "Silice.C71_stated_partial",
    "Silice.C71_counterexample_never_tested",
    "Silice.C71_counterexample_one_hot",
    "Silice.C71_stableinput_partial",
    "Silice.C71_stableinput_refused",
    "Silice.C71_counterexample_stableinput",
    "Silice.C71_immediate_partial",
    "Silice.C71_cover",
    "Silice.C71_counterexample_immediate_reset",
    "Silice.C71_admitted",
    "Silice.C71_counterexample_autorun"
   ],
   "note": "Checks on the past and on stability standing directly in a state of a binary-encoded machine hold exactly when the source claim does, for all executions; never tested elsewhere (proved, a finding). #stableinput for single inputs, immediate checks with the module's reset, covers, and the exact set of executions admitted for callable algorithms. Findings: one-hot, groups and inouts, custom reset, autorun (no execution admitted). Checks in subroutines and pipelines are not modelled."
  },
  {
   "property": "C72",
   "status": "partial",
   "theorems": [
    "Silice.C72_tracked_partial",
    "Silice.C72_delayed",
    "Silice.C72_warned",
    "Silice.C72_unwarned",
    "Silice.C72_counterexample_late",
    "Silice.C72_counterexample_never_reported"
   ],
   "note": "Proved for code in which what a tracker follows is not assigned after the tracker was read; otherwise false (C72_counterexample_late), and the error meant for it is never reported (C72_counterexample_never_reported). One cycle latency of <:: on variables needs no such condition. Warnings about <:: are exact. Parts, tables and inouts are not modelled."
  },
  {
   "property": "C73",
   "status": "partial",
   "theorems": [
    "Silice.C73_ports_partial",
    "Silice.C73_counterexample_upwards",
    "Silice.C73_by_name",
    "Silice.C73_parameters",
    "Silice.C73_counterexample_unknown_parameter",
    "Silice.C73_names",
    "Silice.C73_first",
    "Silice.C73_written_partial",
    "Silice.C73_find",
    "Silice.C73_counterexample_same_module"
   ],
   "note": "Ports proved for ranges written downwards (upwards is false: C73_counterexample_upwards) and headers without empty parameter declarations; the output for units, processors and modules with different names (otherwise false: C73_counterexample_same_module). Names, parameters, lookup and search of files are proved in full; parameters the module does not have are ignored (C73_counterexample_unknown_parameter)."
  },
  {
   "property": "C74",
   "status": "partial",
   "theorems": [
    "Silice.C74_graph_partial",
    "Silice.C74_accepted",
    "Silice.C74_errors",
    "Silice.C74_idle_label",
    "Silice.C74_counterexample_label_in_if"
   ],
   "note": "Proved for the block graph: it does what the text says, for all programs that are accepted; which programs are accepted, with which error, and labels without jumps are proved in full. Missing: that the emitted machine follows the graph; false for labels in conditionals that are jumped to later (C74_counterexample_label_in_if)."
  },
  {
   "property": "C75",
   "status": "partial",
   "theorems": [
    "Silice.C75_counterexample_no_effect",
    "Silice.C75_counterexample_goes_on",
    "Silice.C75_unset_partial",
    "Silice.C75_stateless"
   ],
   "note": "The claim is false of the compiler. C75_counterexample_no_effect: for every program of C21, whichever instructions are return, the hardware is the same as without what is written for return. C75_counterexample_goes_on: in tests/return_in_algorithm.si the loop goes on after return. C75_unset_partial: in cycles in which nothing else assigns the index, a return does end the algorithm. C75_stateless: refused exactly in algorithms without state machine."
  },
  {
   "property": "C76",
   "status": "partial",
   "theorems": [
    "Silice.C76_tables",
    "Silice.C76_unknown_calls",
    "Silice.C76_warnings_right",
    "Silice.C76_first_partial",
    "Silice.C76_calls",
    "Silice.C76_counterexample_unchecked"
   ],
   "note": "C76_tables: what is recorded as permitted is what the declaration gives. C76_warnings_right: every warning is right. C76_calls: calls without permission are warned about, wherever they are. C76_first_partial: without warnings, what a subroutine carries out first in a cycle respects its permissions, in all runs. Missing: what follows in the same cycle; C76_counterexample_unchecked shows that it is not checked."
  },
  {
   "property": "C77",
   "status": "partial",
   "theorems": [
    "Silice.C77_types",
    "Silice.C77_variables_partial",
    "Silice.C77_sameas_partial",
    "Silice.C77_ports_partial",
    "Silice.C77_auto_ports_partial",
    "Silice.C77_counterexample_zero",
    "Silice.C77_constants_partial",
    "Silice.C77_counterexample_constant_outer",
    "Silice.C77_counterexample_constant_auto"
   ],
   "note": "C77_types: types are read as written. C77_variables_partial, C77_sameas_partial, C77_ports_partial, C77_auto_ports_partial: declarations have the bits and sign of the type (or of what it is the same as, or is bound to), and widthof agrees in expressions and in the preprocessor, for widths of at least one bit. C77_constants_partial: in constants, for names that are not translated and types that are not auto. Counterexamples: uint0, constants in a block that redeclares a name, constants on auto ports."
  },
  {
   "property": "C78",
   "status": "partial",
   "theorems": [
    "Silice.C78_bindings_partial",
    "Silice.C78_binding_names_partial",
    "Silice.C78_binding_warning_needed",
    "Silice.C78_binding_access_warning_needed",
    "Silice.C78_counterexample_binding_clock",
    "Silice.C78_counterexample_binding_sign",
    "Silice.C78_instance_partial",
    "Silice.C78_instance_warning_needed",
    "Silice.C78_counterexample_autobound_clock",
    "Silice.C78_expressions",
    "Silice.C78_refused",
    "Silice.C78_comparisons",
    "Silice.C78_comparison_warning_needed",
    "Silice.C78_assignments_partial",
    "Silice.C78_counterexample_assignments",
    "Silice.C78_inputs_partial",
    "Silice.C78_outputs_partial",
    "Silice.C78_tracker_error_right",
    "Silice.C78_trackers_partial",
    "Silice.C78_warnings_partial",
    "Silice.C78_counterexample_unchecked",
    "Silice.C78_counterexample_start",
    "Silice.C78_counterexample_sameas",
    "Silice.C78_counterexample_join"
   ],
   "note": "C78_expressions, C78_refused: warnings on an expression are exactly those for its subexpressions. C78_comparisons, C78_comparison_warning_needed: comparisons without warning are those of the numbers. C78_assignments_partial, C78_inputs_partial, C78_outputs_partial: values are kept, for widths that allow it. C78_trackers_partial: no assignment to a tracker in any cycle of any run of an accepted program. C78_warnings_partial: what each cycle carries out first is linted, with trackers and x := e. C78_tracker_error_right: no false errors. C78_bindings_partial, C78_binding_names_partial, C78_binding_warning_needed, C78_binding_access_warning_needed, C78_instance_partial, C78_instance_warning_needed: the same for bindings of ports. Missing, with counterexamples: signedness of ports bound to names, warnings on clock and reset; warnings in nested blocks, conditionals and the start of algorithms of units; x := e on sameas trackers, trackers receiving results of joins; assignments that lose bits or change sign."
  },
  {
   "property": "C79",
   "status": "proved",
   "theorems": [
    "Silice.C79_delays",
    "Silice.C79_first",
    "Silice.C79_names_distinct",
    "Silice.C79_register",
    "Silice.C79_accepted",
    "Silice.C79_cut",
    "Silice.C79_counterexample_refused"
   ],
   "note": "C79_delays: meaning of := and ::= over all cycles, for accepted units; C79_first: first cycle; C79_names_distinct, C79_register, C79_cut: the inserted variables are distinct registers, the text is cut at the right place; C79_accepted: statements that assign different variables are accepted. C79_counterexample_refused: the check also refuses some harmless statements."
  },
  {
   "property": "C80",
   "status": "partial",
   "theorems": [
    "Silice.C80_starts_partial",
    "Silice.C80_others",
    "Silice.C80_branches",
    "Silice.C80_stage_partial",
    "Silice.C80_counterexample_after",
    "Silice.C80_counterexample_two",
    "Silice.C80_counterexample_break",
    "Silice.C80_counterexample_step",
    "Silice.C80_counterexample"
   ],
   "note": "C80_starts_partial: for all nestings and all values of the tests, a pipeline may start iff the flow comes to it; C80_stage_partial: the same for the first stage of the pipeline; C80_branches, C80_others: consequences. Missing, with counterexamples on sources that compile: a pipeline after a conditional outside of all conditionals, two pipelines in a branch, loops with break, a new cycle after a pipeline in a branch."
  },
  {
   "property": "C81",
   "status": "partial",
   "theorems": [
    "Silice.C81_last_partial",
    "Silice.C81_goes_on_partial",
    "Silice.C81_takes_next",
    "Silice.C81_same_code",
    "Silice.C81_no_cycle_added",
    "Silice.C81_counterexample_twice",
    "Silice.C81_counterexample_loop",
    "Silice.C81_counterexample_assert"
   ],
   "note": "C81_last_partial: after padPipeline the last state ends the stage for all tests; C81_goes_on_partial: the stage follows its code until done, with or without data waiting; C81_takes_next, C81_no_cycle_added, C81_same_code: it takes data at its end, no cycle is added needlessly, the added state carries out the end of the code. Missing, with counterexamples: last states with several ways back, conditionals in nested blocks, nested pipelines."
  }
 ]
}