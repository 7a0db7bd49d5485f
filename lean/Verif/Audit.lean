import Verif.Props.Access
import Verif.Props.AccessUnit
import Verif.Props.Always
import Verif.Props.Arith
import Verif.Props.Binding
import Verif.Props.BitBinding
import Verif.Props.Bitfield
import Verif.Props.CallParams
import Verif.Props.CallPass
import Verif.Props.Checks
import Verif.Props.Circuitry
import Verif.Props.Clocks
import Verif.Props.Delayed
import Verif.Props.Deps
import Verif.Props.ExprText
import Verif.Props.FormalModes
import Verif.Props.FsmCounter
import Verif.Props.FsmNumber
import Verif.Props.FsmRun
import Verif.Props.FsmSkip
import Verif.Props.FsmStates
import Verif.Props.Gather
import Verif.Props.GatherTime
import Verif.Props.Group
import Verif.Props.Image
import Verif.Props.Import
import Verif.Props.Include
import Verif.Props.Init
import Verif.Props.Inline
import Verif.Props.InlineCode
import Verif.Props.Inout
import Verif.Props.Instantiation
import Verif.Props.Jump
import Verif.Props.LintBind
import Verif.Props.LintCode
import Verif.Props.Linter
import Verif.Props.Loops
import Verif.Props.LuaPath
import Verif.Props.LuaText
import Verif.Props.LuaUnits
import Verif.Props.Memory
import Verif.Props.Names
import Verif.Props.Naming
import Verif.Props.Number
import Verif.Props.Padded
import Verif.Props.Permission
import Verif.Props.PipeCode
import Verif.Props.PipeOrder
import Verif.Props.PipeRun
import Verif.Props.Ports
import Verif.Props.Regs
import Verif.Props.Return
import Verif.Props.Riscv
import Verif.Props.SameAs
import Verif.Props.Scope
import Verif.Props.Select
import Verif.Props.Settle
import Verif.Props.Started
import Verif.Props.Switch
import Verif.Props.Table
import Verif.Props.Template
import Verif.Props.TopPins
import Verif.Props.Tracker
import Verif.Props.Usage
import Verif.Props.Whole
import Verif.Props.WholeRun
import Verif.Props.WholeUnit
import Verif.Props.WidthOf
import Verif.Props.Wires
/-! Axioms of every property theorem (printed at build time). -/
#print axioms Silice.C01_clog2_exact
#print axioms Silice.C01_clog2_nonpos
#print axioms Silice.C01_memory_address_reaches_all
#print axioms Silice.C01_memory_of_one_entry_has_no_address_bit
#print axioms Silice.C01_inlined_constant_fits
#print axioms Silice.C02_binary_register_holds_every_state
#print axioms Silice.C02_onehot_register_holds_every_state_partial
#print axioms Silice.C02_onehot_undefined_from_32_states
#print axioms Silice.C02_encodings_distinct
#print axioms Silice.C02_caller_register_holds_every_id
#print axioms Silice.C02_width_undefined_beyond
#print axioms Silice.C03_member_layout
#print axioms Silice.C03_members_tile
#print axioms Silice.C03_member_inside
#print axioms Silice.C03_first_member_is_most_significant
#print axioms Silice.C03_repeated_name_leaves_bits_unreachable
#print axioms Silice.C04_initialiser_roundtrip_partial
#print axioms Silice.C04_accepted_iff
#print axioms Silice.C04_sized_constant_of_wrong_width_corrupts
#print axioms Silice.C04_negative_unsized_is_malformed
#print axioms Silice.C05_parts_read_per_bit
#print axioms Silice.C05_double_cover_is_error
#print axioms Silice.C05_whole_binding
#print axioms Silice.C05_whole_then_part_undetected
#print axioms Silice.C06_operator_width_sufficient
#print axioms Silice.C06_expression_width_sufficient
#print axioms Silice.C06_unsigned_sub_not_exact
#print axioms Silice.C06_mixed_add_not_exact
#print axioms Silice.C06_negation_not_exact
#print axioms Silice.C06_product_with_unsized_constant_narrow
#print axioms Silice.C06_unary_width_sufficient
#print axioms Silice.C07_concat_width
#print axioms Silice.C07_part_types
#print axioms Silice.C07_replication_once_partial
#print axioms Silice.C07_replication_ignores_count
#print axioms Silice.C08_literal_preserved
#print axioms Silice.C08_reading_unique
#print axioms Silice.C08_rewrite_idempotent
#print axioms Silice.C08_isNumber_sized_iff
#print axioms Silice.C08_accepted_digits_have_value
#print axioms Silice.C08_bad_digit_not_rejected
#print axioms Silice.C08_inlined_sized_constant
#print axioms Silice.C08_inlined_positive_constant
#print axioms Silice.C09_accepted_size
#print axioms Silice.C09_list_entries
#print axioms Silice.C09_accepted_iff
#print axioms Silice.C09_reset_values_partial
#print axioms Silice.C09_short_init_reset_undefined
#print axioms Silice.C09_pad_uninitialized_reset_undefined
#print axioms Silice.C09_empty_autosize_accepted
#print axioms Silice.C10_directions_resolved
#print axioms Silice.C10_connection_unique
#print axioms Silice.C11_explicit_bindings_kept
#print axioms Silice.C11_autobound_ports
#print axioms Silice.C11_at_most_once_partial
#print axioms Silice.C11_clock_bound_twice
#print axioms Silice.C11_chosen_directions_valid
#print axioms Silice.C12_checks_pass_iff
#print axioms Silice.C13_names_unique_partial
#print axioms Silice.C13_reuse_refused
#print axioms Silice.C13_same_block_redeclaration_refused
#print axioms Silice.C13_name_reused_in_other_block
#print axioms Silice.C13_subroutine_parameter_refused
#print axioms Silice.C13_group_port_collision
#print axioms Silice.C13_label_prefix_captures_input
#print axioms Silice.C13_variable_named_as_group
#print axioms Silice.C14_accepted_iff_partial
#print axioms Silice.C14_no_parameters
#print axioms Silice.C14_matches_complete
#print axioms Silice.C14_plain_arguments
#print axioms Silice.C14_underscore_member_not_matched
#print axioms Silice.C14_member_used_twice
#print axioms Silice.C15_terminates
#print axioms Silice.C15_accepted_iff_expands
#print axioms Silice.C15_search_order
#print axioms Silice.C15_errors_exact
#print axioms Silice.C15_cycle_under_new_names_undetected
#print axioms Silice.C16_assembled_line_origin
#print axioms Silice.C16_two_stages
#print axioms Silice.C16_inner_line_reports_next_call
#print axioms Silice.C16_negative_position
#print axioms Silice.C16_empty_map_undefined
#print axioms Silice.C17_considers_first_branches
#print axioms Silice.C17_words_considered
#print axioms Silice.C17_error_iff_unmatched
#print axioms Silice.C17_complete_statements_neutral
#print axioms Silice.C17_lines
#print axioms Silice.C17_keyword_stuck_to_parenthesis
#print axioms Silice.C18_numbering
#print axioms Silice.C18_terminates
#print axioms Silice.C18_deterministic
#print axioms Silice.C18_entry_is_one
#print axioms Silice.C19_fuel_irrelevant
#print axioms Silice.C19_terminates
#print axioms Silice.C19_stays_on_states
#print axioms Silice.C19_steps_kept
#print axioms Silice.C19_idempotent
#print axioms Silice.C19_skip_sound
#print axioms Silice.C19_skip_complete
#print axioms Silice.C19_same_executions
#print axioms Silice.C19_counterexample_selfloop
#print axioms Silice.C20_counterexample_no_return
#print axioms Silice.C20_entries_distinct
#print axioms Silice.C20_targets_have_entries
#print axioms Silice.C20_exactly_one_entry
#print axioms Silice.C20_emission_succeeds
#print axioms Silice.C20_code_after_if
#print axioms Silice.C21_counterexample_switch
#print axioms Silice.C21_counterexample_last_block
#print axioms Silice.C21_counterexample_stale_label
#print axioms Silice.C21_one_cycle
#print axioms Silice.C21_lockstep
#print axioms Silice.C21_never_undefined
#print axioms Silice.C21_compiled
#print axioms Silice.C21_programs
#print axioms Silice.C21_counterexample_switch_return
#print axioms Silice.C22_counterexample_recursion
#print axioms Silice.C22_return_goes_back
#print axioms Silice.C22_return_has_call
#print axioms Silice.C23_carried_iff
#print axioms Silice.C23_value_of_own_item
#print axioms Silice.C23_read_sees_previous_stage
#print axioms Silice.C23_first_register
#print axioms Silice.C23_items_in_order_partial
#print axioms Silice.C23_capture
#print axioms Silice.C23_copy_is_private
#print axioms Silice.C24_each_stage_once
#print axioms Silice.C24_writer_first
#print axioms Silice.C24_overtaken_only_when_waiting
#print axioms Silice.C24_natural_order
#print axioms Silice.C25_fails_iff_cycle
#print axioms Silice.C26_in_order_no_loss_no_duplicate_partial
#print axioms Silice.C26_started_once_each_partial
#print axioms Silice.C26_one_item_at_a_time
#print axioms Silice.C26_counterexample_disabled_while_stalled
#print axioms Silice.C27_accepted_iff
#print axioms Silice.C28_closure
#print axioms Silice.C28_terminates
#print axioms Silice.C28_instruction
#print axioms Silice.C28_conditionals_partial
#print axioms Silice.C29_accepted_has_no_self_dependency
#print axioms Silice.C29_single_assignment_accepted
#print axioms Silice.C29_verdict
#print axioms Silice.C29_conditionals_partial
#print axioms Silice.C29_conditionals_verdict
#print axioms Silice.C29_counterexample_spurious
#print axioms Silice.C29_counterexample_branch
#print axioms Silice.C29_counterexample_both
#print axioms Silice.C29_counterexample_part
#print axioms Silice.C30_temporary_written_before_read_partial
#print axioms Silice.C30_register_kept_partial
#print axioms Silice.C30_counterexample_terminated
#print axioms Silice.C30_counterexample_while
#print axioms Silice.C30_counterexample_bitfield
#print axioms Silice.C30_counterexample_output_not_held
#print axioms Silice.C31_inlined_reads_partial
#print axioms Silice.C31_literal_partial
#print axioms Silice.C31_counterexample_mixed
#print axioms Silice.C31_counterexample_literal
#print axioms Silice.C31_code_partial
#print axioms Silice.C31_chosen_partial
#print axioms Silice.C32_classes
#print axioms Silice.C32_register_when_needed_partial
#print axioms Silice.C32_total
#print axioms Silice.C32_bound
#print axioms Silice.C32_programs
#print axioms Silice.C33_incoming_reads_partial
#print axioms Silice.C33_recorded_only_if_needed
#print axioms Silice.C33_terminates
#print axioms Silice.C33_all_terminates
#print axioms Silice.C33_assignment_partial
#print axioms Silice.C33_counterexample_join
#print axioms Silice.C33_counterexample_part
#print axioms Silice.C33_counterexample_index
#print axioms Silice.C33_programs
#print axioms Silice.C34_update_partial
#print axioms Silice.C34_defined
#print axioms Silice.C34_startup_untouched
#print axioms Silice.C34_reset_state
#print axioms Silice.C34_call_starts_fresh
#print axioms Silice.C34_autorun_start
#print axioms Silice.C34_idle_until_called
#print axioms Silice.C34_pipeline_reset
#print axioms Silice.C34_counterexample_short_table
#print axioms Silice.C35_done
#print axioms Silice.C35_done_drained
#print axioms Silice.C35_stays_done
#print axioms Silice.C36_fixed_ports_keep_their_type
#print axioms Silice.C36_specialisation_wins
#print axioms Silice.C36_unspecialised_port_follows_binding_partial
#print axioms Silice.C36_sameas_port_follows_base
#print axioms Silice.C36_unbound_unspecialised_rejected
#print axioms Silice.C36_crossed_binding_wrong_width
#print axioms Silice.C36_case_collision
#print axioms Silice.C37_resolution_partial
#print axioms Silice.C37_terminates
#print axioms Silice.C37_history_partial
#print axioms Silice.C37_counterexample_shadowing
#print axioms Silice.C37_cycle_never_ends
#print axioms Silice.C38_image
#print axioms Silice.C38_packed_unique
#print axioms Silice.C38_palette
#print axioms Silice.C38_refused
#print axioms Silice.C38_palette_refused
#print axioms Silice.C38_counterexample_zero
#print axioms Silice.C38_save_reverses
#print axioms Silice.C38_palette_round_trip
#print axioms Silice.C38_palette_entries
#print axioms Silice.C38_save_rectangular
#print axioms Silice.C39_address
#print axioms Silice.C39_memory
#print axioms Silice.C39_read
#print axioms Silice.C39_write
#print axioms Silice.C39_memory_access
#print axioms Silice.C39_report_write
#print axioms Silice.C39_report_read
#print axioms Silice.C39_refused
#print axioms Silice.C39_supported
#print axioms Silice.C39_counterexample_overflow
#print axioms Silice.C40_partial
#print axioms Silice.C40_whole
#print axioms Silice.C40_accepted_iff
#print axioms Silice.C40_refused
#print axioms Silice.C40_counterexample
#print axioms Silice.C41_glue
#print axioms Silice.C41_order
#print axioms Silice.C41_private
#print axioms Silice.C41_signature
#print axioms Silice.C41_group
#print axioms Silice.C41_counterexample_scalar
#print axioms Silice.C41_counterexample_dropped
#print axioms Silice.C42_read_through
#print axioms Silice.C42_write_refused
#print axioms Silice.C42_terminates
#print axioms Silice.C42_storage
#print axioms Silice.C43_order_partial
#print axioms Silice.C43_counterexample_duplicates
#print axioms Silice.C43_known
#print axioms Silice.C43_counterexample_undefined
#print axioms Silice.C44_accepted_part_inside
#print axioms Silice.C44_inout_no_false_alarm_partial
#print axioms Silice.C44_inout_one_bit_overlap_reported_partial
#print axioms Silice.C44_inout_overlap_missed
#print axioms Silice.C44_inout_same_range_lost
#print axioms Silice.C45_partial
#print axioms Silice.C45_order_partial
#print axioms Silice.C45_none_left_partial
#print axioms Silice.C45_document
#print axioms Silice.C45_counterexample_order
#print axioms Silice.C45_counterexample_dollar
#print axioms Silice.C46_member_access_bits
#print axioms Silice.C46_part_select_bits_partial
#print axioms Silice.C46_part_select_escapes_member
#print axioms Silice.C47_copies
#print axioms Silice.C47_accepted
#print axioms Silice.C47_accepted_copies
#print axioms Silice.C47_errors
#print axioms Silice.C47_sum
#print axioms Silice.C48_partial
#print axioms Silice.C48_refused_partial
#print axioms Silice.C48_counts
#print axioms Silice.C48_counterexample_local
#print axioms Silice.C48_counterexample_swapped
#print axioms Silice.C48_counterexample_inout
#print axioms Silice.C48_counterexample_later
#print axioms Silice.C49_hardware_follows_source_partial
#print axioms Silice.C50_call_and_join
#print axioms Silice.C51_partial
#print axioms Silice.C51_counterexample
#print axioms Silice.C52_cycles
#print axioms Silice.C52_deterministic
#print axioms Silice.C52_code_that_fits
#print axioms Silice.C52_one_cycle_algorithm
#print axioms Silice.C52_step
#print axioms Silice.C52_while_enter
#print axioms Silice.C52_while_iteration
#print axioms Silice.C52_while_exit_partial
#print axioms Silice.C52_counterexample_while_exit
#print axioms Silice.C52_if_cut
#print axioms Silice.C52_if_leaving
#print axioms Silice.C52_counterexample_one_branch
#print axioms Silice.C52_call
#print axioms Silice.C52_join
#print axioms Silice.C52_counterexample_dead_code
#print axioms Silice.C53_whole_partial
#print axioms Silice.C53_source_deterministic
#print axioms Silice.C53_history_deterministic
#print axioms Silice.C53_history_partial
#print axioms Silice.C53_program_deterministic
#print axioms Silice.C53_program_partial
#print axioms Silice.C54_accepted_partial
#print axioms Silice.C54_executed_partial
#print axioms Silice.C54_counterexample_legacy
#print axioms Silice.C54_counterexample_legacy_accepted
#print axioms Silice.C55_structure_partial
#print axioms Silice.C55_reading_unique
#print axioms Silice.C55_text_determines
#print axioms Silice.C55_counterexample_merged
#print axioms Silice.C55_counterexample_rejected
#print axioms Silice.C55_counterexample_chain
#print axioms Silice.C55_counterexample_replication
#print axioms Silice.C56_read_last_written_partial
#print axioms Silice.C56_read_while_writing
#print axioms Silice.C56_latency_partial
#print axioms Silice.C56_default_configuration
#print axioms Silice.C56_masked_configuration
#print axioms Silice.C56_accepted_iff
#print axioms Silice.C56_outside
#print axioms Silice.C56_counterexample_mask_width
#print axioms Silice.C56_counterexample_grain
#print axioms Silice.C56_counterexample_simulation
#print axioms Silice.C57_no_loop_partial
#print axioms Silice.C57_verdict
#print axioms Silice.C57_bindings_exact
#print axioms Silice.C57_delayed_bindings
#print axioms Silice.C57_registered_instances
#print axioms Silice.C57_counterexample_registered
#print axioms Silice.C57_counterexample_delayed
#print axioms Silice.C57_counterexample_parts
#print axioms Silice.C57_counterexample_overwritten
#print axioms Silice.C57_determined_partial
#print axioms Silice.C57_settles_partial
#print axioms Silice.C58_stages_keep_meaning_partial
#print axioms Silice.C58_item_as_in_sequence_partial
#print axioms Silice.C58_counterexample_backward
#print axioms Silice.C58_counterexample_assigned_before
#print axioms Silice.C59_input_timing
#print axioms Silice.C59_refused
#print axioms Silice.C59_output_timing_partial
#print axioms Silice.C59_bound_output
#print axioms Silice.C59_algorithm_partial
#print axioms Silice.C59_design
#print axioms Silice.C59_latency
#print axioms Silice.C59_counterexample_bound_output
#print axioms Silice.C60_modules_distinct_partial
#print axioms Silice.C60_instantiated_written
#print axioms Silice.C60_counterexample_modules
#print axioms Silice.C60_imports
#print axioms Silice.C60_counterexample_import
#print axioms Silice.C60_signals_distinct_partial
#print axioms Silice.C60_counterexample_signals
#print axioms Silice.C61_text_kept_partial
#print axioms Silice.C61_only_blanks_dropped
#print axioms Silice.C61_ends
#print axioms Silice.C61_counterexample_apostrophe
#print axioms Silice.C61_counterexample_backslash
#print axioms Silice.C61_counterexample_blanks
#print axioms Silice.C61_counterexample_stars
#print axioms Silice.C61_counterexample_stars_end
#print axioms Silice.C61_counterexample_glued
#print axioms Silice.C61_counterexample_tab
#print axioms Silice.C61_counterexample_slash
#print axioms Silice.C61_counterexample_order
#print axioms Silice.C62_nothing_lost
#print axioms Silice.C62_ends
#print axioms Silice.C62_units_partial
#print axioms Silice.C62_names
#print axioms Silice.C62_counterexample_comment_unit
#print axioms Silice.C62_counterexample_comment_bracket
#print axioms Silice.C62_counterexample_apostrophe
#print axioms Silice.C62_counterexample_if
#print axioms Silice.C62_counterexample_name
#print axioms Silice.C63_accepted_iff
#print axioms Silice.C63_assignment_iff
#print axioms Silice.C63_read_partial
#print axioms Silice.C63_code_partial
#print axioms Silice.C63_counterexample_table
#print axioms Silice.C63_counterexample_bounds
#print axioms Silice.C63_counterexample_hidden
#print axioms Silice.C63_counterexample_field_macro
#print axioms Silice.C64_call_accepted_iff
#print axioms Silice.C64_subroutine_accepted_iff
#print axioms Silice.C64_join_accepted_iff
#print axioms Silice.C64_return_accepted_iff
#print axioms Silice.C64_call_nothing
#print axioms Silice.C64_call_partial
#print axioms Silice.C64_subroutine_partial
#print axioms Silice.C64_inputs_hold
#print axioms Silice.C64_join_partial
#print axioms Silice.C64_return_partial
#print axioms Silice.C64_counterexample_sequential
#print axioms Silice.C64_counterexample_index
#print axioms Silice.C64_counterexample_input
#print axioms Silice.C64_counterexample_wire
#print axioms Silice.C64_counterexample_bound
#print axioms Silice.C65_driven_partial
#print axioms Silice.C65_free
#print axioms Silice.C65_next_cycle
#print axioms Silice.C65_read
#print axioms Silice.C65_split_partial
#print axioms Silice.C65_split_read
#print axioms Silice.C65_connection_text
#print axioms Silice.C65_statements_closed_partial
#print axioms Silice.C65_counterexample_whole_output
#print axioms Silice.C65_counterexample_part_output
#print axioms Silice.C65_counterexample_split_reader
#print axioms Silice.C65_counterexample_split_free
#print axioms Silice.C65_counterexample_split_listener
#print axioms Silice.C65_counterexample_combinational
#print axioms Silice.C66_unsigned_partial
#print axioms Silice.C66_signed_partial
#print axioms Silice.C66_signed_sized_partial
#print axioms Silice.C66_expression_partial
#print axioms Silice.C66_default_place
#print axioms Silice.C66_onehot_partial
#print axioms Silice.C66_onehot_zero
#print axioms Silice.C66_counterexample_mixed_signs
#print axioms Silice.C66_counterexample_mixed_sizes
#print axioms Silice.C66_counterexample_negative
#print axioms Silice.C66_counterexample_not_verilog
#print axioms Silice.C66_counterexample_onehot_missing
#print axioms Silice.C66_counterexample_onehot_several
#print axioms Silice.C67_group_ports
#print axioms Silice.C67_group_accepted
#print axioms Silice.C67_interface_accepted
#print axioms Silice.C67_group_combinational
#print axioms Silice.C67_interface_combinational
#print axioms Silice.C67_group_connected_partial
#print axioms Silice.C67_interface_connected_partial
#print axioms Silice.C67_interface_types_partial
#print axioms Silice.C67_counterexample_captured
#print axioms Silice.C67_counterexample_listed_twice
#print axioms Silice.C67_counterexample_missing_member
#print axioms Silice.C67_counterexample_order
#print axioms Silice.C68_algorithm_partial
#print axioms Silice.C68_unit_partial
#print axioms Silice.C68_names_apart
#print axioms Silice.C68_unit_names_apart
#print axioms Silice.C68_source_partial
#print axioms Silice.C68_checked_partial
#print axioms Silice.C68_unit_checked_partial
#print axioms Silice.C68_names
#print axioms Silice.C68_parameter_like_variable
#print axioms Silice.C68_counterexample_use_before_declaration
#print axioms Silice.C68_counterexample_parameter_hides_local
#print axioms Silice.C68_counterexample_translated_twice
#print axioms Silice.C68_counterexample_made_name_used
#print axioms Silice.C68_counterexample_labels_collide
#print axioms Silice.C68_counterexample_parameter_variable
#print axioms Silice.C68_counterexample_stage_after_switch
#print axioms Silice.C68_counterexample_scope_unchecked
#print axioms Silice.C69_values_partial
#print axioms Silice.C69_registers_partial
#print axioms Silice.C69_initializer_mandatory
#print axioms Silice.C69_counterexample_sameas
#print axioms Silice.C69_counterexample_sameas_input
#print axioms Silice.C69_counterexample_sameas_const
#print axioms Silice.C70_designated_partial
#print axioms Silice.C70_reset_port
#print axioms Silice.C70_counterexample_reset_not_given
#print axioms Silice.C70_counterexample_check_reset
#print axioms Silice.C70_counterexample_part_clock
#print axioms Silice.C71_stated_partial
#print axioms Silice.C71_counterexample_never_tested
#print axioms Silice.C71_counterexample_one_hot
#print axioms Silice.C71_stableinput_partial
#print axioms Silice.C71_stableinput_refused
#print axioms Silice.C71_counterexample_stableinput
#print axioms Silice.C71_immediate_partial
#print axioms Silice.C71_cover
#print axioms Silice.C71_counterexample_immediate_reset
#print axioms Silice.C71_admitted
#print axioms Silice.C71_counterexample_autorun
#print axioms Silice.C72_tracked_partial
#print axioms Silice.C72_delayed
#print axioms Silice.C72_warned
#print axioms Silice.C72_unwarned
#print axioms Silice.C72_counterexample_late
#print axioms Silice.C72_counterexample_never_reported
#print axioms Silice.C73_ports_partial
#print axioms Silice.C73_counterexample_upwards
#print axioms Silice.C73_by_name
#print axioms Silice.C73_parameters
#print axioms Silice.C73_counterexample_unknown_parameter
#print axioms Silice.C73_names
#print axioms Silice.C73_first
#print axioms Silice.C73_written_partial
#print axioms Silice.C73_find
#print axioms Silice.C73_counterexample_same_module
#print axioms Silice.C74_graph_partial
#print axioms Silice.C74_accepted
#print axioms Silice.C74_errors
#print axioms Silice.C74_idle_label
#print axioms Silice.C74_counterexample_label_in_if
#print axioms Silice.C75_counterexample_no_effect
#print axioms Silice.C75_counterexample_goes_on
#print axioms Silice.C75_unset_partial
#print axioms Silice.C75_stateless
#print axioms Silice.C76_tables
#print axioms Silice.C76_unknown_calls
#print axioms Silice.C76_warnings_right
#print axioms Silice.C76_first_partial
#print axioms Silice.C76_calls
#print axioms Silice.C76_counterexample_unchecked
#print axioms Silice.C77_types
#print axioms Silice.C77_variables_partial
#print axioms Silice.C77_sameas_partial
#print axioms Silice.C77_ports_partial
#print axioms Silice.C77_auto_ports_partial
#print axioms Silice.C77_counterexample_zero
#print axioms Silice.C77_constants_partial
#print axioms Silice.C77_counterexample_constant_outer
#print axioms Silice.C77_counterexample_constant_auto
#print axioms Silice.C78_bindings_partial
#print axioms Silice.C78_binding_names_partial
#print axioms Silice.C78_binding_warning_needed
#print axioms Silice.C78_binding_access_warning_needed
#print axioms Silice.C78_counterexample_binding_clock
#print axioms Silice.C78_counterexample_binding_sign
#print axioms Silice.C78_instance_partial
#print axioms Silice.C78_instance_warning_needed
#print axioms Silice.C78_counterexample_autobound_clock
#print axioms Silice.C78_expressions
#print axioms Silice.C78_refused
#print axioms Silice.C78_comparisons
#print axioms Silice.C78_comparison_warning_needed
#print axioms Silice.C78_assignments_partial
#print axioms Silice.C78_counterexample_assignments
#print axioms Silice.C78_inputs_partial
#print axioms Silice.C78_outputs_partial
#print axioms Silice.C78_tracker_error_right
#print axioms Silice.C78_trackers_partial
#print axioms Silice.C78_warnings_partial
#print axioms Silice.C78_counterexample_unchecked
#print axioms Silice.C78_counterexample_start
#print axioms Silice.C78_counterexample_sameas
#print axioms Silice.C78_counterexample_join
#print axioms Silice.C79_delays
#print axioms Silice.C79_first
#print axioms Silice.C79_names_distinct
#print axioms Silice.C79_register
#print axioms Silice.C79_accepted
#print axioms Silice.C79_cut
#print axioms Silice.C79_counterexample_refused
#print axioms Silice.C80_starts_partial
#print axioms Silice.C80_others
#print axioms Silice.C80_branches
#print axioms Silice.C80_stage_partial
#print axioms Silice.C80_counterexample_after
#print axioms Silice.C80_counterexample_two
#print axioms Silice.C80_counterexample_break
#print axioms Silice.C80_counterexample_step
#print axioms Silice.C80_counterexample
#print axioms Silice.C81_last_partial
#print axioms Silice.C81_goes_on_partial
#print axioms Silice.C81_takes_next
#print axioms Silice.C81_same_code
#print axioms Silice.C81_no_cycle_added
#print axioms Silice.C81_counterexample_twice
#print axioms Silice.C81_counterexample_loop
#print axioms Silice.C81_counterexample_assert
