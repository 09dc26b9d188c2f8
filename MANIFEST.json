{"claims": [
 {"property": "C01", "status": "proved", "theorems": ["QuDiet.C01_run_sequential", "QuDiet.C01_run_total", "QuDiet.C01_session_is_script"], "note": ""},
 {"property": "C02", "status": "proved", "theorems": ["QuDiet.C02_classical_single_outcome"], "note": ""},
 {"property": "C03", "status": "proved", "theorems": ["QuDiet.C03_x_adds", "QuDiet.C03_x_out_of_range"], "note": ""},
 {"property": "C04", "status": "proved", "theorems": ["QuDiet.C04_cx_controlled"], "note": ""},
 {"property": "C05", "status": "proved", "theorems": ["QuDiet.C05_toffoli_controlled"], "note": ""},
 {"property": "C06", "status": "proved", "theorems": ["QuDiet.C06_adjacent_toffoli_never_runs", "QuDiet.C06_distant_toffoli_is_cx"], "note": ""},
 {"property": "C07", "status": "proved", "theorems": ["QuDiet.C07_h_spreads", "QuDiet.C07_h_is_fourier", "QuDiet.C07_h_twice_qubit", "QuDiet.C07_h_four_times_qutrit"], "note": ""},
 {"property": "C08", "status": "proved", "theorems": ["QuDiet.C08_unitary_iff", "QuDiet.C08_uncorrelated_total", "QuDiet.C08_h_grows", "QuDiet.C08_h_not_unitary", "QuDiet.C08_h_not_unitary_dim_four", "QuDiet.C08_prime_order"], "note": "Unitarity for every dimension is false of the code; proved: the exact condition on the order of the roots, the refutation for the order of np.roots for every d >= 4 and for every order when d = 4, and that some order works for each prime d."},
 {"property": "C09", "status": "proved", "theorems": ["QuDiet.C09_z_phases", "QuDiet.C09_z_order"], "note": ""},
 {"property": "C10", "status": "proved", "theorems": ["QuDiet.C10_total_probability_one"], "note": ""},
 {"property": "C11", "status": "proved", "theorems": ["QuDiet.C11_output_listing", "QuDiet.C11_run_listing"], "note": ""},
 {"property": "C12", "status": "proved", "theorems": ["QuDiet.C12_label_digits", "QuDiet.C12_labels_differ", "QuDiet.C12_labels_collide", "QuDiet.C12_labels_collide_eleven", "QuDiet.C12_ambiguous_iff", "QuDiet.C12_print_decides", "QuDiet.C12_print_misleads"], "note": ""},
 {"property": "C13", "status": "proved", "theorems": ["QuDiet.C13_probability_is_square", "QuDiet.C13_real_probabilities", "QuDiet.C13_not_probabilities"], "note": ""},
 {"property": "C14", "status": "proved", "theorems": ["QuDiet.C14_decode_encode", "QuDiet.C14_encode_decode", "QuDiet.C14_too_large", "QuDiet.C14_length_mismatch", "QuDiet.C14_monotone"], "note": ""},
 {"property": "C15", "status": "proved", "theorems": ["QuDiet.C15_tables", "QuDiet.C15_get_index"], "note": ""},
 {"property": "C16", "status": "proved", "theorems": ["QuDiet.C16_run_needs_measure_all", "QuDiet.C16_closed", "QuDiet.C16_answers_after", "QuDiet.C16_answers_before"], "note": ""},
 {"property": "C17", "status": "proved", "theorems": ["QuDiet.C17_run_leaves_no_trace", "QuDiet.C17_run_repeatable"], "note": ""},
 {"property": "C18", "status": "proved", "theorems": ["QuDiet.C18_missing_register", "QuDiet.C18_negative_register_ignored"], "note": ""},
 {"property": "C19", "status": "proved", "theorems": ["QuDiet.C19_cx_never_raises", "QuDiet.C19_cx_outside_is_noop", "QuDiet.C19_cx_overlap_never_runs"], "note": ""},
 {"property": "C20", "status": "proved", "theorems": ["QuDiet.C20_constructor_accepts", "QuDiet.C20_constructor_raises", "QuDiet.C20_too_many_levels", "QuDiet.C20_prepared_state"], "note": ""},
 {"property": "C21", "status": "proved", "theorems": ["QuDiet.C21_pair_is_list", "QuDiet.C21_two_qubits", "QuDiet.C21_pair_labels", "QuDiet.C21_pair_differs", "QuDiet.C21_pair_toffoli", "QuDiet.C21_pair_toffoli_alone"], "note": "The documented equivalence is refuted for every pair but (2, 2); proved is what the pair form does instead. toffoli without controls on register 0 of a pair with n != d is left out."},
 {"property": "C22", "status": "proved", "theorems": ["QuDiet.C22_layers", "QuDiet.C22_depth", "QuDiet.C22_depth_bounds", "QuDiet.C22_depth_monotone"], "note": ""},
 {"property": "C23", "status": "proved", "theorems": ["QuDiet.C23_counts", "QuDiet.C23_depth_agrees", "QuDiet.C23_pair_reports"], "note": "The English claim says where the two depths and the register count disagree for the pair form; C23_pair_reports proves exactly that."},
 {"property": "C24", "status": "proved", "theorems": ["QuDiet.C24_backend_independent", "QuDiet.C24_numpy_eq_sparse"], "note": ""},
 {"property": "C25", "status": "proved", "theorems": ["QuDiet.C25_disjoint_calls_commute"], "note": ""},
 {"property": "C26", "status": "proved", "theorems": ["QuDiet.C26_layers_tile"], "note": ""},
 {"property": "C27", "status": "proved", "theorems": ["QuDiet.Qasm.C27_program", "QuDiet.Qasm.C27_declared_dims", "QuDiet.Qasm.C27_run", "QuDiet.Qasm.C27_missing_register"], "note": "ASCII text; the text of a program is given by Program.text in QasmSpec.lean."},
 {"property": "C28", "status": "proved", "theorems": ["QuDiet.Qasm.C28_ignored_line"], "note": ""},
 {"property": "C29", "status": "proved", "theorems": ["QuDiet.Qasm.C29_dims", "QuDiet.Qasm.C29_toffoli_line", "QuDiet.Qasm.C29_toffolis_do_nothing"], "note": ""},
 {"property": "C30", "status": "proved", "theorems": ["QuDiet.Qasm.C30_missing_markers", "QuDiet.Qasm.C30_no_line_starts_with_dot", "QuDiet.Qasm.C30_enough_markers"], "note": ""},
 {"property": "C31", "status": "proved", "theorems": ["QuDiet.Qasm.C31_rx_never_runs", "QuDiet.Qasm.C31_rx_is_x", "QuDiet.Qasm.C31_other_angles_dropped"], "note": ""},
 {"property": "C32", "status": "proved", "theorems": ["QuDiet.C32_text_drawing", "QuDiet.C32_pair_of_two", "QuDiet.C32_pair_raises", "QuDiet.C32_cx_outside"], "note": ""},
 {"property": "C33", "status": "proved", "theorems": ["QuDiet.C33_mpl", "QuDiet.C33_mpl_raises", "QuDiet.C33_toffoli_wrong_dimension", "QuDiet.C33_cnot_loses_increment"], "note": "The property as a user would wish it is false; the theorem says exactly when the drawing raises and what it shows."},
 {"property": "C34", "status": "proved", "theorems": ["QuDiet.Tree.C34_multi_controlled_not", "QuDiet.Tree.C34_default_input", "QuDiet.Tree.C34_too_few_lines"], "note": "RUN_CIRC for every number of lines and every input bits; n < 3 is shown to raise"},
 {"property": "C35", "status": "proved", "theorems": ["QuDiet.Tree.C35_formula", "QuDiet.Tree.C35_partition", "QuDiet.Tree.C35_labels"], "note": "counters, sets and closed formula; the qutrit formula over-counts for even control counts; the printed labels differ from the counters when the last grandparent has no right grandchild"},
 {"property": "C36", "status": "proved", "theorems": ["QuDiet.C36_opposite_increment_undoes"], "note": ""},
 {"property": "C37", "status": "proved", "theorems": ["QuDiet.C37_oversized_rejected", "QuDiet.C37_undersized_never_runs"], "note": ""},
 {"property": "C38", "status": "proved", "theorems": ["QuDiet.C38_custom_gate_acts", "QuDiet.C38_bad_custom_gate_never_runs", "QuDiet.C38_two_register_gate_never_runs"], "note": ""},
 {"property": "C39", "status": "proved", "theorems": ["QuDiet.C39_raising_call_changes_nothing", "QuDiet.C39_raising_call_leaves_no_trace"], "note": ""},
 {"property": "C40", "status": "proved", "theorems": ["QuDiet.C40_caller_list_padded", "QuDiet.C40_caller_list_padded_list", "QuDiet.C40_reuse_raises"], "note": ""},
 {"property": "C41", "status": "proved", "theorems": ["QuDiet.Tools.C41_result_name", "QuDiet.Tools.C41_batch", "QuDiet.Tools.C41_collision_across_invocations"], "note": "One invocation. Across invocations (other extension or other backend) names can collide: C41_collision_across_invocations."},
 {"property": "C42", "status": "proved", "theorems": ["QuDiet.Tools.C42_header_inserted", "QuDiet.Tools.C42_header_position", "QuDiet.Tools.C42_all_kept", "QuDiet.Tools.C42_fix", "QuDiet.Tools.C42_check", "QuDiet.Tools.C42_new_year", "QuDiet.Tools.C42_truncated_header_accepted", "QuDiet.Tools.C42_line_ends"], "note": "Limits proved as well: a new year accumulates headers, a truncated header is accepted, in a file of kept lines only the header precedes the last one."},
 {"property": "C43", "status": "proved", "theorems": ["QuDiet.C43_no_signalling"], "note": ""},
 {"property": "C44", "status": "proved", "theorems": ["QuDiet.C44_circuits_are_isolated"], "note": "Separate: no list is used both as qregs and as init_states; an example shows that isolation fails without it."},
 {"property": "C45", "status": "proved", "theorems": ["QuDiet.C45_initial_levels_are_x_calls"], "note": ""},
 {"property": "C46", "status": "proved", "theorems": ["QuDiet.C46_uncompute", "QuDiet.C46_back_to_start"], "note": ""},
 {"property": "C47", "status": "proved", "theorems": ["QuDiet.C47_controls_target_increment", "QuDiet.C47_increments_add", "QuDiet.C47_repetition"], "note": ""},
 {"property": "C48", "status": "proved", "theorems": ["QuDiet.C48_increments_commute", "QuDiet.C48_diagonal_commutes_with_controls", "QuDiet.C48_diagonals_commute"], "note": ""},
 {"property": "C49", "status": "proved", "theorems": ["QuDiet.C49_increments_relabel", "QuDiet.C49_diagonal_multiplies", "QuDiet.C49_z_changes_phases_only"], "note": ""},
 {"property": "C50", "status": "proved", "theorems": ["QuDiet.C50_untouched_keeps_level"], "note": ""},
 {"property": "C51", "status": "proved", "theorems": ["QuDiet.C51_independent_parts", "QuDiet.C51_unused_registers"], "note": ""},
 {"property": "C52", "status": "proved", "theorems": ["QuDiet.Qasm.C52_line_forms", "QuDiet.Qasm.C52_cx_sign", "QuDiet.Qasm.C52_unread_parts", "QuDiet.Qasm.C52_malformed_line", "QuDiet.Qasm.C52_malformed_kind"], "note": "Lines without a dot; ASCII text."},
 {"property": "C53", "status": "proved", "theorems": ["QuDiet.C53_mixed_toffoli_never_runs", "QuDiet.C53_oversized_gate_never_runs", "QuDiet.C53_small_gate_makes_up"], "note": ""},
 {"property": "C54", "status": "proved", "theorems": ["QuDiet.C54_permutations_are_exact", "QuDiet.C54_classical_single_outcome"], "note": "Any backend satisfying Backend.Rounds; instance: rounding to 53 bits."},
 {"property": "C55", "status": "proved", "theorems": ["QuDiet.C55_error_bound", "QuDiet.C55_linear_bound", "QuDiet.C55_no_outcome_lost"], "note": "Under Backend.Rounds and Numerics.Near; overflow and underflow are not modelled."},
 {"property": "C56", "status": "proved", "theorems": ["QuDiet.C56_what_takes_effect", "QuDiet.C56_layers_act", "QuDiet.C56_rest_is_dropped", "QuDiet.C56_gate_lost", "QuDiet.C56_closed"], "note": "C56_gate_lost is the concrete witness that gates are lost."},
 {"property": "C57", "status": "proved", "theorems": ["QuDiet.C57_measured_at_once", "QuDiet.C57_lone_measurement", "QuDiet.C57_runAny_is_run"], "note": "Layers that consist of a lone measurement are excluded by hypothesis; C57_lone_measurement shows that the claim fails for them."},
 {"property": "C58", "status": "proved", "theorems": ["QuDiet.C58_total_within", "QuDiet.C58_rounded_total", "QuDiet.C58_far_never_runs", "QuDiet.C58_gain", "QuDiet.C58_total_of_scalars", "QuDiet.C58_numpy_total", "QuDiet.C58_numpy_unitary_acts", "QuDiet.C58_numpy_drifts"], "note": ""},
 {"property": "C59", "status": "proved", "theorems": ["QuDiet.C59_pages", "QuDiet.C59_compress", "QuDiet.C59_no_overlap", "QuDiet.C59_empty_figure"], "note": "How wide texts are rendered is a parameter. C59_empty_figure: the last figure can be empty."},
 {"property": "C60", "status": "proved", "theorems": ["QuDiet.C60_paths", "QuDiet.C60_replace"], "note": ""},
 {"property": "C61", "status": "proved", "theorems": ["QuDiet.C61_uniform"], "note": ""},
 {"property": "C62", "status": "proved", "theorems": ["QuDiet.C62_kickback", "QuDiet.C62_bernstein_vazirani", "QuDiet.C62_deutsch_jozsa", "QuDiet.C62_constant", "QuDiet.C62_balanced", "QuDiet.C62_bernstein_vazirani_mask"], "note": ""},
 {"property": "C63", "status": "proved", "theorems": ["QuDiet.C63_chain", "QuDiet.C63_ghz"], "note": ""},
 {"property": "C64", "status": "proved", "theorems": ["QuDiet.C64_swap", "QuDiet.C64_qutrits"], "note": ""},
 {"property": "C65", "status": "proved", "theorems": ["QuDiet.C65_teleport", "QuDiet.C65_teleport_anywhere"], "note": ""},
 {"property": "C66", "status": "proved", "theorems": ["QuDiet.C66_grover", "QuDiet.C66_success"], "note": ""},
 {"property": "C67", "status": "proved", "theorems": ["QuDiet.C67_layers_as_values", "QuDiet.C67_isolated", "QuDiet.C67_shared_layer_leaks", "QuDiet.C67_shared_layer_changes", "QuDiet.C67_care_is_needed"], "note": "The first two: isolation when layers are handed over with care; the others: what happens otherwise."},
 {"property": "C68", "status": "proved", "theorems": ["QuDiet.C68_other_lists_are_free", "QuDiet.C68_changed_registers_relabel", "QuDiet.C68_changed_registers_reports", "QuDiet.C68_changed_registers_classical", "QuDiet.C68_gate_after_change"], "note": "The positive part (init_states and unrelated lists) and what happens instead for the qregs list."},
 {"property": "C69", "status": "proved", "theorems": ["QuDiet.C69_processor_over_other_registers", "QuDiet.C69_same_size"], "note": ""},
 {"property": "C70", "status": "proved", "theorems": ["QuDiet.C70_reordering", "QuDiet.C70_order_per_register", "QuDiet.C70_order_matters", "QuDiet.C70_depth_depends_on_order"], "note": ""},
 {"property": "C71", "status": "proved", "theorems": ["QuDiet.C71_orthogonal", "QuDiet.C71_every_outcome", "QuDiet.C71_classical_bijection"], "note": ""},
 {"property": "C72", "status": "proved", "theorems": ["QuDiet.C72_undo_all", "QuDiet.C72_back_to_start"], "note": ""},
 {"property": "C73", "status": "proved", "theorems": ["QuDiet.Tree.C73_generated_tests_pass", "QuDiet.Tree.C73_small_sizes_fail"], "note": ""},
 {"property": "C74", "status": "proved", "theorems": ["QuDiet.Qasm.C74_line_ends", "QuDiet.Qasm.C74_written", "QuDiet.Qasm.C74_program", "QuDiet.Qasm.C74_crlf_in_strings"], "note": ""},
 {"property": "C75", "status": "proved", "theorems": ["QuDiet.Tools.C75_stopped", "QuDiet.Tools.C75_run_again", "QuDiet.Tools.C75_file_lost", "QuDiet.Tools.C75_batch"], "note": ""},
 {"property": "C76", "status": "proved", "theorems": ["QuDiet.C76_gate_is_method", "QuDiet.C76_gate_raises", "QuDiet.C76_gate_classes", "QuDiet.C76_identity_depth"], "note": ""},
 {"property": "C77", "status": "proved", "theorems": ["QuDiet.C77_placing", "QuDiet.C77_valid", "QuDiet.C77_any_order", "QuDiet.C77_single_control"], "note": ""},
 {"property": "C78", "status": "proved", "theorems": ["QuDiet.C78_backward"], "note": ""},
 {"property": "C79", "status": "proved", "theorems": ["QuDiet.C79_all_or_nothing", "QuDiet.C79_gates_all_or_nothing", "QuDiet.C79_measurement_lost"], "note": ""},
 {"property": "C80", "status": "proved", "theorems": ["QuDiet.C80_threads", "QuDiet.C80_finishes", "QuDiet.C80_alone", "QuDiet.C80_lost", "QuDiet.C80_lost_result"], "note": "C80_lost and C80_lost_result show that the hypothesis on registers is needed"},
 {"property": "C81", "status": "proved", "theorems": ["QuDiet.C81_common_calls", "QuDiet.C81_extension", "QuDiet.C81_found", "QuDiet.C81_same_depth", "QuDiet.C81_missed", "QuDiet.C81_numpy", "QuDiet.C81_measured"], "note": ""},
 {"property": "C82", "status": "proved", "theorems": ["QuDiet.C82_run_while_building", "QuDiet.C82_one_register", "QuDiet.C82_result_one_register", "QuDiet.C82_measured_alone", "QuDiet.C82_run_finishes", "QuDiet.C82_run_alone", "QuDiet.C82_spoiled", "QuDiet.C82_too_early"], "note": ""},
 {"property": "C83", "status": "proved", "theorems": ["QuDiet.Tree.C83_control_states", "QuDiet.Tree.C83_wrong_state", "QuDiet.Tree.C83_target_states"], "note": ""},
 {"property": "C84", "status": "proved", "theorems": ["QuDiet.Tools.C84_check", "QuDiet.Tools.C84_fix", "QuDiet.Tools.C84_hidden", "QuDiet.Tools.C84_missing", "QuDiet.Tools.C84_modes"], "note": ""},
 {"property": "C85", "status": "proved", "theorems": ["QuDiet.C85_every_function", "QuDiet.C85_odd_dimensions", "QuDiet.C85_no_exchange", "QuDiet.C85_one_register"], "note": ""},
 {"property": "C86", "status": "proved", "theorems": ["QuDiet.Tools.C86_batch", "QuDiet.Tools.C86_nothing", "QuDiet.Tools.C86_backend"], "note": ""},
 {"property": "C87", "status": "proved", "theorems": ["QuDiet.Tools.C87_results", "QuDiet.Tools.C87_backends_agree"], "note": ""},
 {"property": "C88", "status": "proved", "theorems": ["QuDiet.C88_extent", "QuDiet.C88_product", "QuDiet.C88_identity", "QuDiet.C88_undo", "QuDiet.C88_kron", "QuDiet.C88_circuit_as_gate", "QuDiet.C88_every_permutation", "QuDiet.C88_repeat_to_run"], "note": ""},
 {"property": "C89", "status": "proved", "theorems": ["QuDiet.C89_controlled", "QuDiet.C89_misreported"], "note": ""},
 {"property": "C90", "status": "proved", "theorems": ["QuDiet.Tools.C90_check", "QuDiet.Tools.C90_fix", "QuDiet.Tools.C90_same_disk"], "note": ""},
 {"property": "C91", "status": "proved", "theorems": ["QuDiet.Qasm.C91_any_text", "QuDiet.Qasm.C91_plain_form", "QuDiet.Qasm.C91_written"], "note": "ASCII text, as in C27."},
 {"property": "C92", "status": "proved", "theorems": ["QuDiet.C92_initial_levels_decide", "QuDiet.C92_print_decides", "QuDiet.C92_every_run_needed", "QuDiet.C92_squares_do_not_decide"], "note": ""},
 {"property": "C93", "status": "proved", "theorems": ["QuDiet.C93_h_x_z", "QuDiet.C93_between_h", "QuDiet.C93_cx_reversed"], "note": ""},
 {"property": "C94", "status": "proved", "theorems": ["QuDiet.Tools.C94_shows", "QuDiet.Tools.C94_incomplete", "QuDiet.Tools.C94_after_batch"], "note": ""},
 {"property": "C95", "status": "proved", "theorems": ["QuDiet.Tools.C95_any_order", "QuDiet.Tools.C95_stopped", "QuDiet.Tools.C95_safe", "QuDiet.Tools.C95_lost"], "note": ""},
 {"property": "C96", "status": "proved", "theorems": ["QuDiet.C96_copied", "QuDiet.C96_levels_copied", "QuDiet.C96_no_copy"], "note": ""},
 {"property": "C97", "status": "proved", "theorems": ["QuDiet.C97_dense_coding"], "note": ""},
 {"property": "C98", "status": "proved", "theorems": ["QuDiet.Tools.C98_check", "QuDiet.Tools.C98_fix", "QuDiet.Tools.C98_order", "QuDiet.Tools.C98_repaired", "QuDiet.Tools.C98_all"], "note": ""},
 {"property": "C99", "status": "proved", "theorems": ["QuDiet.Tools.C99_batch", "QuDiet.Tools.C99_none", "QuDiet.Tools.C99_again", "QuDiet.Tools.C99_shown"], "note": ""},
 {"property": "C100", "status": "proved", "theorems": ["QuDiet.C100_at_most", "QuDiet.C100_growth", "QuDiet.C100_kept", "QuDiet.C100_reached", "QuDiet.C100_qubits"], "note": ""},
 {"property": "C101", "status": "proved", "theorems": ["QuDiet.Tools.C101_shows", "QuDiet.Tools.C101_raises", "QuDiet.Tools.C101_left_out", "QuDiet.Tools.C101_all"], "note": ""},
 {"property": "C102", "status": "proved", "theorems": ["QuDiet.C102_counts", "QuDiet.C102_gate_count", "QuDiet.C102_depth", "QuDiet.C102_registers", "QuDiet.C102_alone", "QuDiet.C102_ends", "QuDiet.C102_depth_may_be_too_small"], "note": ""},
 {"property": "C103", "status": "proved", "theorems": ["QuDiet.C103_between", "QuDiet.C103_raises", "QuDiet.C103_ends", "QuDiet.C103_alone", "QuDiet.C103_may_raise"], "note": ""},
 {"property": "C104", "status": "proved", "theorems": ["QuDiet.C104_between", "QuDiet.C104_figures", "QuDiet.C104_figures_show", "QuDiet.C104_figures_alone", "QuDiet.C104_raises", "QuDiet.C104_too_early", "QuDiet.C104_ends", "QuDiet.C104_alone"], "note": ""},
 {"property": "C105", "status": "proved", "theorems": ["QuDiet.C105_circuit", "QuDiet.C105_info", "QuDiet.C105_str", "QuDiet.C105_mpl", "QuDiet.C105_run", "QuDiet.C105_one_run", "QuDiet.C105_run_after", "QuDiet.C105_run_may_return_another", "QuDiet.C105_run_ends", "QuDiet.C105_others_end"], "note": ""}
]}
