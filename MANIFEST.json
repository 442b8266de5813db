{
 "claims": [
  {
   "property": "C01",
   "status": "proved",
   "theorems": [
    "Stoq.C01_construct_ok",
    "Stoq.C01_construct_default",
    "Stoq.C01_construct_rejects",
    "Stoq.C01_construct_normal_form"
   ],
   "note": ""
  },
  {
   "property": "C02",
   "status": "proved",
   "theorems": [
    "Stoq.C02_inverse_ok",
    "Stoq.C02_inverse_two_sided",
    "Stoq.C02_inverse_involutive"
   ],
   "note": ""
  },
  {
   "property": "C03",
   "status": "proved",
   "theorems": [
    "Stoq.C03_multiply",
    "Stoq.C03_multiply_assoc",
    "Stoq.C03_multiply_identity",
    "Stoq.C03_multiply_rejects"
   ],
   "note": ""
  },
  {
   "property": "C04",
   "status": "proved",
   "theorems": [
    "Stoq.C04_tensor",
    "Stoq.C04_tensor_mul",
    "Stoq.C04_tensor_inverse",
    "Stoq.C04_tensor_identity"
   ],
   "note": ""
  },
  {
   "property": "C05",
   "status": "proved",
   "theorems": [
    "Stoq.C05_distance_value",
    "Stoq.C05_distance_range",
    "Stoq.C05_distance_symm",
    "Stoq.C05_distance_zero_iff",
    "Stoq.C05_distance_phase_blind",
    "Stoq.C05_distance_invariant",
    "Stoq.C05_distance_inverse",
    "Stoq.C05_distance_rejects"
   ],
   "note": ""
  },
  {
   "property": "C06",
   "status": "proved",
   "theorems": [
    "Stoq.C06_close_iff",
    "Stoq.C06_close_total",
    "Stoq.C06_close_antitone",
    "Stoq.C06_close_trivial",
    "Stoq.C06_close_symm",
    "Stoq.C06_close_one_iff",
    "Stoq.C06_close_none_iff",
    "Stoq.C06_close_none_of_one",
    "Stoq.C06_none_is_not_one"
   ],
   "note": ""
  },
  {
   "property": "C07",
   "status": "proved",
   "theorems": [
    "Stoq.C07_tolerance_not_closed",
    "Stoq.C07_exact_never_raises"
   ],
   "note": ""
  },
  {
   "property": "C08",
   "status": "proved",
   "theorems": [
    "Stoq.C08_full_unitary",
    "Stoq.C08_entries",
    "Stoq.C08_rejects"
   ],
   "note": ""
  },
  {
   "property": "C09",
   "status": "proved",
   "theorems": [
    "Stoq.C09_homomorphism",
    "Stoq.C09_full_unitary_mul",
    "Stoq.C09_disjoint_commute"
   ],
   "note": ""
  },
  {
   "property": "C10",
   "status": "proved",
   "theorems": [
    "Stoq.C10_permute_matrix"
   ],
   "note": ""
  },
  {
   "property": "C11",
   "status": "proved",
   "theorems": [
    "Stoq.C11_entry_accepts_iff",
    "Stoq.C11_entry_rejects",
    "Stoq.C11_primitive_accepts_iff",
    "Stoq.C11_primitive_trivial"
   ],
   "note": ""
  },
  {
   "property": "C12",
   "status": "proved",
   "theorems": [
    "Stoq.C12_cache_invisible",
    "Stoq.C12_full_unitary_is_embedding"
   ],
   "note": ""
  },
  {
   "property": "C13",
   "status": "proved",
   "theorems": [
    "Stoq.C13_only_powers_of_two"
   ],
   "note": ""
  },
  {
   "property": "C14",
   "status": "proved",
   "theorems": [
    "Stoq.C14_sequences_are_lists",
    "Stoq.C14_any_threshold",
    "Stoq.C14_successful_call"
   ],
   "note": ""
  },
  {
   "property": "C15",
   "status": "proved",
   "theorems": [
    "Stoq.C15_product",
    "Stoq.C15_circuit_is_product"
   ],
   "note": ""
  },
  {
   "property": "C16",
   "status": "proved",
   "theorems": [
    "Stoq.C16_undo_restores",
    "Stoq.C16_undo_nothing",
    "Stoq.C16_remove_empty"
   ],
   "note": ""
  },
  {
   "property": "C17",
   "status": "proved",
   "theorems": [
    "Stoq.C17_inverse",
    "Stoq.C17_distinct_gates",
    "Stoq.C17_any_threshold"
   ],
   "note": ""
  },
  {
   "property": "C18",
   "status": "proved",
   "theorems": [
    "Stoq.C18_inverted_once_per_occurrence",
    "Stoq.C18_product_disagrees_with_entries"
   ],
   "note": ""
  },
  {
   "property": "C19",
   "status": "proved",
   "theorems": [
    "Stoq.C19_combine",
    "Stoq.C19_combine_rejects"
   ],
   "note": ""
  },
  {
   "property": "C20",
   "status": "proved",
   "theorems": [
    "Stoq.C20_isolation",
    "Stoq.C20_isolation_run",
    "Stoq.C20_product_isolation"
   ],
   "note": ""
  },
  {
   "property": "C21",
   "status": "proved",
   "theorems": [
    "Stoq.C21_rejected_unchanged",
    "Stoq.C21_fitting_accepted",
    "Stoq.C21_not_power_of_two"
   ],
   "note": ""
  },
  {
   "property": "C22",
   "status": "proved",
   "theorems": [
    "Stoq.C22_array_never_changes",
    "Stoq.C22_attribute_error",
    "Stoq.C22_length"
   ],
   "note": ""
  },
  {
   "property": "C23",
   "status": "proved",
   "theorems": [
    "Stoq.C23_text_lists_entries",
    "Stoq.C23_text_total",
    "Stoq.C23_unitary_text",
    "Stoq.C23_text_sessions",
    "Stoq.C23_text_mirror"
   ],
   "note": ""
  },
  {
   "property": "C24",
   "status": "proved",
   "theorems": [
    "Stoq.C24_text_loses_inversion",
    "Stoq.C24_unitary_shows_inversion",
    "Stoq.C24_line_ignores_mark"
   ],
   "note": ""
  },
  {
   "property": "C25",
   "status": "proved",
   "theorems": [
    "Stoq.C25_random_value_in_range",
    "Stoq.C25_random_value_reaches",
    "Stoq.C25_constructor",
    "Stoq.C25_is_valid"
   ],
   "note": ""
  },
  {
   "property": "C26",
   "status": "proved",
   "theorems": [
    "Stoq.C26_as_unitary_ok",
    "Stoq.C26_as_unitary_surplus",
    "Stoq.C26_as_unitary_out_of_range",
    "Stoq.C26_as_unitary_missing",
    "Stoq.C26_as_unitary_only"
   ],
   "note": ""
  },
  {
   "property": "C27",
   "status": "proved",
   "theorems": [
    "Stoq.C27_rx",
    "Stoq.C27_ry",
    "Stoq.C27_rz",
    "Stoq.C27_rphi",
    "Stoq.C27_xx",
    "Stoq.C27_groups",
    "Stoq.C27_rphi_axes",
    "Stoq.C27_periodic",
    "Stoq.C27_pauli",
    "Stoq.C27_hadamard",
    "Stoq.C27_t",
    "Stoq.C27_cnot",
    "Stoq.C27_ccnot",
    "Stoq.C27_qecc",
    "Stoq.C27_parameterized"
   ],
   "note": ""
  },
  {
   "property": "C28",
   "status": "proved",
   "theorems": [
    "Stoq.C28_gms",
    "Stoq.C28_any_order",
    "Stoq.C28_group",
    "Stoq.C28_two",
    "Stoq.C28_small",
    "Stoq.C28_quarter",
    "Stoq.C28_parameterized"
   ],
   "note": ""
  },
  {
   "property": "C29",
   "status": "proved",
   "theorems": [
    "Stoq.C29_evolution",
    "Stoq.C29_zero",
    "Stoq.C29_compose",
    "Stoq.C29_inverse",
    "Stoq.C29_reject",
    "Stoq.C29_rx",
    "Stoq.C29_inverse_phase",
    "Stoq.C29_parameterized"
   ],
   "note": ""
  },
  {
   "property": "C30",
   "status": "proved",
   "theorems": [
    "Stoq.C30_compile_stops",
    "Stoq.C30_compileLayered_stops",
    "Stoq.C30_loop_is_not_cut"
   ],
   "note": ""
  },
  {
   "property": "C31",
   "status": "proved",
   "theorems": [
    "Stoq.C31_compile_is_walk",
    "Stoq.C31_compileLayered_is_walk",
    "Stoq.C31_compile_frame"
   ],
   "note": ""
  },
  {
   "property": "C32",
   "status": "proved",
   "theorems": [
    "Stoq.C32_compile_costs",
    "Stoq.C32_compileLayered_costs",
    "Stoq.C32_compile_prefix",
    "Stoq.C32_compile_early",
    "Stoq.C32_compileLayered_early"
   ],
   "note": ""
  },
  {
   "property": "C33",
   "status": "proved",
   "theorems": [
    "Stoq.C33_compile_never_raises",
    "Stoq.C33_compileLayered_never_raises"
   ],
   "note": ""
  },
  {
   "property": "C34",
   "status": "proved",
   "theorems": [
    "Stoq.C34_compile_provenance",
    "Stoq.C34_compileLayered_provenance"
   ],
   "note": ""
  },
  {
   "property": "C35",
   "status": "proved",
   "theorems": [
    "Stoq.C35_improvement_accepted",
    "Stoq.C35_worse_accepted_iff",
    "Stoq.C35_one_draw",
    "Stoq.C35_rule_applies",
    "Stoq.C35_detailed_balance"
   ],
   "note": ""
  },
  {
   "property": "C36",
   "status": "proved",
   "theorems": [
    "Stoq.C36_compile_schedule",
    "Stoq.C36_compileLayered_schedule",
    "Stoq.C36_new_compiler",
    "Stoq.C36_first_compile",
    "Stoq.C36_never_above_cap",
    "Stoq.C36_never_decreases"
   ],
   "note": ""
  },
  {
   "property": "C37",
   "status": "proved",
   "theorems": [
    "Stoq.C37_second_compile_continues",
    "Stoq.C37_reuse_differs"
   ],
   "note": ""
  },
  {
   "property": "C38",
   "status": "proved",
   "theorems": [
    "Stoq.C38_unusable_ignored",
    "Stoq.C38_chosen_usable",
    "Stoq.C38_probabilities_fail"
   ],
   "note": ""
  },
  {
   "property": "C39",
   "status": "proved",
   "theorems": [
    "Stoq.C39_action_probabilities",
    "Stoq.C39_action_choice",
    "Stoq.C39_outside_raises",
    "Stoq.C39_outside_compile_raises",
    "Stoq.C39_zero_gives_empty",
    "Stoq.C39_one_only_adds",
    "Stoq.C39_one_never_removes"
   ],
   "note": ""
  },
  {
   "property": "C40",
   "status": "proved",
   "theorems": [
    "Stoq.C40_whole_layers",
    "Stoq.C40_whole_layers_always",
    "Stoq.C40_negative_counts_break_layers"
   ],
   "note": ""
  },
  {
   "property": "C41",
   "status": "proved",
   "theorems": [
    "Stoq.C41_layer_counts",
    "Stoq.C41_every_order"
   ],
   "note": ""
  },
  {
   "property": "C42",
   "status": "proved",
   "theorems": [
    "Stoq.C42_rav_is_plan",
    "Stoq.C42_rav_shape",
    "Stoq.C42_rav_distance",
    "Stoq.C42_rav_never_raises",
    "Stoq.C42_rav_frame"
   ],
   "note": ""
  },
  {
   "property": "C43",
   "status": "proved",
   "theorems": [
    "Stoq.C43_layered_is_plan",
    "Stoq.C43_layered_shape",
    "Stoq.C43_layered_distance",
    "Stoq.C43_layered_never_raises",
    "Stoq.C43_xeb"
   ],
   "note": ""
  },
  {
   "property": "C44",
   "status": "proved",
   "theorems": [
    "Stoq.C44_only_random",
    "Stoq.C44_nothing_to_do",
    "Stoq.C44_threshold_out_of_range",
    "Stoq.C44_threshold_none"
   ],
   "note": ""
  },
  {
   "property": "C45",
   "status": "proved",
   "theorems": [
    "Stoq.C45_normalisation",
    "Stoq.C45_accepts",
    "Stoq.C45_rejects",
    "Stoq.C45_zero",
    "Stoq.C45_accepted_iff"
   ],
   "note": ""
  },
  {
   "property": "C46",
   "status": "proved",
   "theorems": [
    "Stoq.C46_ideal_gates",
    "Stoq.C46_ideal_product",
    "Stoq.C46_ideal_zero",
    "Stoq.C46_ideal_negative",
    "Stoq.C46_ideal_shape",
    "Stoq.C46_ideal_frame"
   ],
   "note": ""
  },
  {
   "property": "C47",
   "status": "proved",
   "theorems": [
    "Stoq.C47_trotter_gates",
    "Stoq.C47_trotter_commuting",
    "Stoq.C47_trotter_zero",
    "Stoq.C47_trotter_shape",
    "Stoq.C47_every_order",
    "Stoq.C47_trotter_frame"
   ],
   "note": ""
  },
  {
   "property": "C48",
   "status": "proved",
   "theorems": [
    "Stoq.C48_trotter_bound",
    "Stoq.C48_trotter_limit"
   ],
   "note": ""
  },
  {
   "property": "C49",
   "status": "proved",
   "theorems": [
    "Stoq.C49_qdrift_gates",
    "Stoq.C49_qdrift_mean",
    "Stoq.C49_drawing",
    "Stoq.C49_qdrift_shape",
    "Stoq.C49_qdrift_frame"
   ],
   "note": ""
  },
  {
   "property": "C50",
   "status": "proved",
   "theorems": [
    "Stoq.C50_single",
    "Stoq.C50_members",
    "Stoq.C50_order",
    "Stoq.C50_once",
    "Stoq.C50_count",
    "Stoq.C50_primitives",
    "Stoq.C50_negative",
    "Stoq.C50_labels"
   ],
   "note": ""
  },
  {
   "property": "C51",
   "status": "proved",
   "theorems": [
    "Stoq.C51_stoq_shape",
    "Stoq.C51_stoq_is_walk",
    "Stoq.C51_stoq_never_raises",
    "Stoq.C51_stoq_distance",
    "Stoq.C51_stoq_negative",
    "Stoq.C51_stoq_frame"
   ],
   "note": ""
  },
  {
   "property": "C52",
   "status": "proved",
   "theorems": [
    "Stoq.C52_fuel",
    "Stoq.C52_rav_shape",
    "Stoq.C52_rav_is_plan",
    "Stoq.C52_rav_distance",
    "Stoq.C52_rav_random_part",
    "Stoq.C52_rav_running",
    "Stoq.C52_rav_ends_iff",
    "Stoq.C52_rav_never_ends",
    "Stoq.C52_rav_no_time",
    "Stoq.C52_rav_negative",
    "Stoq.C52_rav_frame"
   ],
   "note": ""
  },
  {
   "property": "C53",
   "status": "proved",
   "theorems": [
    "Stoq.C53_gate_unweighted",
    "Stoq.C53_gate_weighted",
    "Stoq.C53_new_entry",
    "Stoq.C53_every_outcome",
    "Stoq.C53_qubits_equally_likely",
    "Stoq.C53_allowed_equally_likely",
    "Stoq.C53_reachable"
   ],
   "note": ""
  },
  {
   "property": "C54",
   "status": "proved",
   "theorems": [
    "Stoq.C54_shuffle_uniform",
    "Stoq.C54_shuffle_total",
    "Stoq.C54_draws_count",
    "Stoq.C54_choice_uniform",
    "Stoq.C54_layer_shuffled"
   ],
   "note": ""
  },
  {
   "property": "C55",
   "status": "proved",
   "theorems": [
    "Stoq.C55_every_circuit",
    "Stoq.C55_can_succeed",
    "Stoq.C55_every_layered_circuit"
   ],
   "note": ""
  },
  {
   "property": "C56",
   "status": "proved",
   "theorems": [
    "Stoq.C56_construct",
    "Stoq.C56_inverse",
    "Stoq.C56_multiply",
    "Stoq.C56_distance",
    "Stoq.C56_full_unitary",
    "Stoq.C56_budget"
   ],
   "note": ""
  },
  {
   "property": "C57",
   "status": "proved",
   "theorems": [
    "Stoq.C57_histories"
   ],
   "note": ""
  },
  {
   "property": "C58",
   "status": "proved",
   "theorems": [
    "Stoq.C58_no_shared_entries",
    "Stoq.C58_returned_sequence",
    "Stoq.C58_inverse"
   ],
   "note": ""
  },
  {
   "property": "C59",
   "status": "proved",
   "theorems": [
    "Stoq.C59_state",
    "Stoq.C59_results",
    "Stoq.C59_tasks",
    "Stoq.C59_use"
   ],
   "note": ""
  },
  {
   "property": "C60",
   "status": "proved",
   "theorems": [
    "Stoq.C60_hamiltonian_accepts_iff",
    "Stoq.C60_hamiltonian_rejects",
    "Stoq.C60_compiler",
    "Stoq.C60_compile_primitives",
    "Stoq.C60_verification",
    "Stoq.C60_parameterized"
   ],
   "note": ""
  },
  {
   "property": "C61",
   "status": "proved",
   "theorems": [
    "Stoq.C61_ideal_gates",
    "Stoq.C61_compile",
    "Stoq.C61_compileLayered",
    "Stoq.C61_early_end",
    "Stoq.C61_last_cost",
    "Stoq.C61_no_error"
   ],
   "note": ""
  },
  {
   "property": "C62",
   "status": "proved",
   "theorems": [
    "Stoq.C62_rotations",
    "Stoq.C62_xx",
    "Stoq.C62_fixed",
    "Stoq.C62_renamed",
    "Stoq.C62_hadamard",
    "Stoq.C62_evolution",
    "Stoq.C62_gms",
    "Stoq.C62_parameterized",
    "Stoq.C62_parameterized_gms",
    "Stoq.C62_parameterized_evolution",
    "Stoq.C62_primitive"
   ],
   "note": ""
  },
  {
   "property": "C63",
   "status": "proved",
   "theorems": [
    "Stoq.C63_rav",
    "Stoq.C63_layered",
    "Stoq.C63_distance"
   ],
   "note": ""
  },
  {
   "property": "C64",
   "status": "proved",
   "theorems": [
    "Stoq.C64_evolution",
    "Stoq.C64_ideal",
    "Stoq.C64_trotter",
    "Stoq.C64_qdrift",
    "Stoq.C64_primitives",
    "Stoq.C64_stoq",
    "Stoq.C64_rav",
    "Stoq.C64_stoq_distance",
    "Stoq.C64_rav_distance"
   ],
   "note": ""
  },
  {
   "property": "C65",
   "status": "proved",
   "theorems": [
    "Stoq.C65_ideal_probs",
    "Stoq.C65_output_probs",
    "Stoq.C65_rav",
    "Stoq.C65_xeb",
    "Stoq.C65_xeb_scale",
    "Stoq.C65_xeb_defined"
   ],
   "note": ""
  },
  {
   "property": "C66",
   "status": "proved",
   "theorems": [
    "Stoq.C66_rav",
    "Stoq.C66_rav_simulation",
    "Stoq.C66_xeb_simulation",
    "Stoq.C66_xeb_std"
   ],
   "note": ""
  },
  {
   "property": "C67",
   "status": "proved",
   "theorems": [
    "Stoq.C67_mean_return",
    "Stoq.C67_each_return",
    "Stoq.C67_default_error",
    "Stoq.C67_sharp",
    "Stoq.C67_rav",
    "Stoq.C67_layered"
   ],
   "note": ""
  },
  {
   "property": "C68",
   "status": "proved",
   "theorems": [
    "Stoq.C68_compile_law",
    "Stoq.C68_compileLayered_law"
   ],
   "note": ""
  },
  {
   "property": "C69",
   "status": "proved",
   "theorems": [
    "Stoq.C69_compile_succeeds",
    "Stoq.C69_compileLayered_succeeds",
    "Stoq.C69_enough_steps",
    "Stoq.C69_possible_gates"
   ],
   "note": ""
  },
  {
   "property": "C70",
   "status": "proved",
   "theorems": [
    "Stoq.C70_rav_law",
    "Stoq.C70_layeredRav_law",
    "Stoq.C70_rav_succeeds",
    "Stoq.C70_layeredRav_succeeds",
    "Stoq.C70_exact_return_impossible"
   ],
   "note": ""
  },
  {
   "property": "C71",
   "status": "proved",
   "theorems": [
    "Stoq.C71_qdrift_bound",
    "Stoq.C71_qdrift_expectation",
    "Stoq.C71_qdrift_limit"
   ],
   "note": ""
  },
  {
   "property": "C72",
   "status": "proved",
   "theorems": [
    "Stoq.C72_all_programs",
    "Stoq.C72_looking_is_free",
    "Stoq.C72_identity",
    "Stoq.C72_no_sharing",
    "Stoq.C72_plain_lists"
   ],
   "note": ""
  },
  {
   "property": "C73",
   "status": "proved",
   "theorems": [
    "Stoq.C73_gate_R",
    "Stoq.C73_gate_MS",
    "Stoq.C73_gate_Rz",
    "Stoq.C73_idle",
    "Stoq.C73_coordinates",
    "Stoq.C73_states",
    "Stoq.C73_circuit",
    "Stoq.C73_success_rate",
    "Stoq.C73_echo",
    "Stoq.C73_over_rotation",
    "Stoq.C73_not_per_duration",
    "Stoq.C73_durations",
    "Stoq.C73_rotations",
    "Stoq.C73_named"
   ],
   "note": ""
  },
  {
   "property": "C74",
   "status": "proved",
   "theorems": [
    "Stoq.C74_primitives",
    "Stoq.C74_gates",
    "Stoq.C74_reach",
    "Stoq.C74_program",
    "Stoq.C74_layered_rav",
    "Stoq.C74_rav",
    "Stoq.C74_rounding",
    "Stoq.C74_library",
    "Stoq.C74_rphi_swapped",
    "Stoq.C74_rphi_wrong"
   ],
   "note": ""
  },
  {
   "property": "C75",
   "status": "proved",
   "theorems": [
    "Stoq.C75_rounded",
    "Stoq.C75_nearest",
    "Stoq.C75_double",
    "Stoq.C75_libraries",
    "Stoq.C75_programs",
    "Stoq.C75_coarse"
   ],
   "note": ""
  },
  {
   "property": "C76",
   "status": "proved",
   "theorems": [
    "Stoq.C76_native_universal",
    "Stoq.C76_fixed_universal",
    "Stoq.C76_clifford_t_universal",
    "Stoq.C76_can_succeed",
    "Stoq.C76_compile_succeeds",
    "Stoq.C76_native_can_succeed",
    "Stoq.C76_clifford_t_succeeds"
   ],
   "note": ""
  },
  {
   "property": "C77",
   "status": "proved",
   "theorems": [
    "Stoq.C77_can_draw",
    "Stoq.C77_compile_succeeds",
    "Stoq.C77_compileLayered_succeeds",
    "Stoq.C77_universal_succeeds",
    "Stoq.C77_library_continuous",
    "Stoq.C77_native_universal",
    "Stoq.C77_native_succeeds",
    "Stoq.C77_layers_universal",
    "Stoq.C77_native_layers_succeed"
   ],
   "note": ""
  },
  {
   "property": "C78",
   "status": "proved",
   "theorems": [
    "Stoq.C78_rav_succeeds",
    "Stoq.C78_layeredRav_succeeds",
    "Stoq.C78_native_rav",
    "Stoq.C78_native_layered_rav"
   ],
   "note": ""
  },
  {
   "property": "C79",
   "status": "proved",
   "theorems": [
    "Stoq.C79_evolution_continuous",
    "Stoq.C79_stoq_possible",
    "Stoq.C79_stoq_necessary",
    "Stoq.C79_stoq_zero_step",
    "Stoq.C79_trotter_possible",
    "Stoq.C79_simultaneous_possible",
    "Stoq.C79_evolutions_succeed"
   ],
   "note": ""
  },
  {
   "property": "C80",
   "status": "proved",
   "theorems": [
    "Stoq.C80_random_part",
    "Stoq.C80_never_ends",
    "Stoq.C80_rav_possible"
   ],
   "note": ""
  },
  {
   "property": "C81",
   "status": "proved",
   "theorems": [
    "Stoq.C81_accuracy",
    "Stoq.C81_unitary",
    "Stoq.C81_non_unitary",
    "Stoq.C81_inverse_random",
    "Stoq.C81_close_to",
    "Stoq.C81_close_to_exact",
    "Stoq.C81_gms",
    "Stoq.C81_gms_rounded",
    "Stoq.C81_parameterized"
   ],
   "note": ""
  },
  {
   "property": "C82",
   "status": "proved",
   "theorems": [
    "Stoq.C82_entries",
    "Stoq.C82_sequences"
   ],
   "note": ""
  },
  {
   "property": "C83",
   "status": "proved",
   "theorems": [
    "Stoq.C83_compile_identity",
    "Stoq.C83_compile_sigmaz",
    "Stoq.C83_compile_two_qubits",
    "Stoq.C83_compile_sigmaz_approximate"
   ],
   "note": ""
  },
  {
   "property": "C84",
   "status": "proved",
   "theorems": [
    "Stoq.C84_no_inverse",
    "Stoq.C84_rav",
    "Stoq.C84_layered_rav"
   ],
   "note": ""
  },
  {
   "property": "C85",
   "status": "proved",
   "theorems": [
    "Stoq.C85_qdrift_distance",
    "Stoq.C85_qdrift_in_probability"
   ],
   "note": ""
  },
  {
   "property": "C86",
   "status": "proved",
   "theorems": [
    "Stoq.C86_construction",
    "Stoq.C86_ideal_sequence",
    "Stoq.C86_qdrift",
    "Stoq.C86_stoq",
    "Stoq.C86_rav",
    "Stoq.C86_trotter",
    "Stoq.C86_trotter_iff",
    "Stoq.C86_trotter_fails"
   ],
   "note": ""
  },
  {
   "property": "C87",
   "status": "proved",
   "theorems": [
    "Stoq.C87_random_trotter",
    "Stoq.C87_random_trotter_limit"
   ],
   "note": ""
  },
  {
   "property": "C88",
   "status": "proved",
   "theorems": [
    "Stoq.C88_compile",
    "Stoq.C88_compileLayered",
    "Stoq.C88_rav",
    "Stoq.C88_layeredRav",
    "Stoq.C88_stoq",
    "Stoq.C88_hamiltonian_rav",
    "Stoq.C88_succeeds",
    "Stoq.C88_comesBack",
    "Stoq.C88_stoq_succeeds",
    "Stoq.C88_rav_succeeds",
    "Stoq.C88_returns",
    "Stoq.C88_compile_fails",
    "Stoq.C88_compile_almost_surely",
    "Stoq.C88_compileLayered_fails",
    "Stoq.C88_rav_fails",
    "Stoq.C88_layeredRav_fails"
   ],
   "note": ""
  },
  {
   "property": "C89",
   "status": "proved",
   "theorems": [
    "Stoq.C89_compiler_events",
    "Stoq.C89_verification_events",
    "Stoq.C89_hamiltonian_events",
    "Stoq.C89_compiler",
    "Stoq.C89_verification",
    "Stoq.C89_hamiltonian"
   ],
   "note": ""
  },
  {
   "property": "C90",
   "status": "proved",
   "theorems": [
    "Stoq.C90_calls",
    "Stoq.C90_compile_stops",
    "Stoq.C90_compiler_walks",
    "Stoq.C90_trotter_fixed",
    "Stoq.C90_stoq_single",
    "Stoq.C90_rav_steps"
   ],
   "note": ""
  },
  {
   "property": "C91",
   "status": "proved",
   "theorems": [
    "Stoq.C91_points",
    "Stoq.C91_values",
    "Stoq.C91_degenerate",
    "Stoq.C91_range",
    "Stoq.C91_close_to_bucket_mean",
    "Stoq.C91_not_bucket_mean",
    "Stoq.C91_average_defined",
    "Stoq.C91_average",
    "Stoq.C91_curves",
    "Stoq.C91_compiled"
   ],
   "note": ""
  },
  {
   "property": "C92",
   "status": "proved",
   "theorems": [
    "Stoq.C92_event",
    "Stoq.C92_two_qubits",
    "Stoq.C92_fails"
   ],
   "note": ""
  },
  {
   "property": "C93",
   "status": "proved",
   "theorems": [
    "Stoq.C93_report",
    "Stoq.C93_notebook",
    "Stoq.C93_line",
    "Stoq.C93_found"
   ],
   "note": ""
  },
  {
   "property": "C94",
   "status": "proved",
   "theorems": [
    "Stoq.C94_compile_all",
    "Stoq.C94_compileLayered_all",
    "Stoq.C94_one",
    "Stoq.C94_native_all"
   ],
   "note": ""
  },
  {
   "property": "C95",
   "status": "proved",
   "theorems": [
    "Stoq.C95_compile_steps",
    "Stoq.C95_compile_steps_all",
    "Stoq.C95_compileLayered_steps_all",
    "Stoq.C95_length"
   ],
   "note": ""
  },
  {
   "property": "C96",
   "status": "proved",
   "theorems": [
    "Stoq.C96_flips",
    "Stoq.C96_coherent",
    "Stoq.C96_rate",
    "Stoq.C96_near",
    "Stoq.C96_compiled",
    "Stoq.C96_native"
   ],
   "note": ""
  },
  {
   "property": "C97",
   "status": "proved",
   "theorems": [
    "Stoq.C97_draws",
    "Stoq.C97_files",
    "Stoq.C97_negative_bound",
    "Stoq.C97_ends",
    "Stoq.C97_almost_surely"
   ],
   "note": ""
  },
  {
   "property": "C98",
   "status": "proved",
   "theorems": [
    "Stoq.C98_universal",
    "Stoq.C98_layers_succeed",
    "Stoq.C98_layers_all",
    "Stoq.C98_layers_steps",
    "Stoq.C98_gates_succeed"
   ],
   "note": ""
  },
  {
   "property": "C99",
   "status": "proved",
   "theorems": [
    "Stoq.C99_counts",
    "Stoq.C99_bare",
    "Stoq.C99_file",
    "Stoq.C99_generated"
   ],
   "note": ""
  },
  {
   "property": "C100",
   "status": "proved",
   "theorems": [
    "Stoq.C100_runs",
    "Stoq.C100_sum_one",
    "Stoq.C100_rates",
    "Stoq.C100_xeb",
    "Stoq.C100_points",
    "Stoq.C100_bins",
    "Stoq.C100_whole",
    "Stoq.C100_heights",
    "Stoq.C100_errors"
   ],
   "note": ""
  },
  {
   "property": "C101",
   "status": "proved",
   "theorems": [
    "Stoq.C101_discard",
    "Stoq.C101_even",
    "Stoq.C101_index",
    "Stoq.C101_records",
    "Stoq.C101_records_simulated",
    "Stoq.C101_once",
    "Stoq.C101_odd",
    "Stoq.C101_name",
    "Stoq.C101_other",
    "Stoq.C101_order",
    "Stoq.C101_runs",
    "Stoq.C101_rav",
    "Stoq.C101_xeb"
   ],
   "note": ""
  },
  {
   "property": "C102",
   "status": "proved",
   "theorems": [
    "Stoq.C102_exact",
    "Stoq.C102_errors",
    "Stoq.C102_exists",
    "Stoq.C102_bins",
    "Stoq.C102_chi",
    "Stoq.C102_depth"
   ],
   "note": ""
  },
  {
   "property": "C103",
   "status": "proved",
   "theorems": [
    "Stoq.C103_argument",
    "Stoq.C103_text",
    "Stoq.C103_rav",
    "Stoq.C103_xeb",
    "Stoq.C103_points",
    "Stoq.C103_fit",
    "Stoq.C103_ideal"
   ],
   "note": ""
  },
  {
   "property": "C104",
   "status": "proved",
   "theorems": [
    "Stoq.C104_std",
    "Stoq.C104_fits",
    "Stoq.C104_rav",
    "Stoq.C104_xeb",
    "Stoq.C104_relative",
    "Stoq.C104_ratio",
    "Stoq.C104_other_runs"
   ],
   "note": ""
  },
  {
   "property": "C105",
   "status": "proved",
   "theorems": [
    "Stoq.C105_unique",
    "Stoq.C105_groups",
    "Stoq.C105_sem",
    "Stoq.C105_points",
    "Stoq.C105_curve"
   ],
   "note": ""
  },
  {
   "property": "C106",
   "status": "proved",
   "theorems": [
    "Stoq.C106_defined",
    "Stoq.C106_below",
    "Stoq.C106_not_below",
    "Stoq.C106_no_distribution",
    "Stoq.C106_figure"
   ],
   "note": ""
  },
  {
   "property": "C107",
   "status": "proved",
   "theorems": [
    "Stoq.C107_perfect",
    "Stoq.C107_no_noise",
    "Stoq.C107_simulation",
    "Stoq.C107_deviation",
    "Stoq.C107_shots"
   ],
   "note": ""
  },
  {
   "property": "C108",
   "status": "proved",
   "theorems": [
    "Stoq.C108_rav",
    "Stoq.C108_xeb",
    "Stoq.C108_below"
   ],
   "note": ""
  },
  {
   "property": "C109",
   "status": "proved",
   "theorems": [
    "Stoq.C109_rav",
    "Stoq.C109_xeb",
    "Stoq.C109_below_solid",
    "Stoq.C109_compiled",
    "Stoq.C109_not_default",
    "Stoq.C109_missing",
    "Stoq.C109_solid"
   ],
   "note": ""
  },
  {
   "property": "C110",
   "status": "proved",
   "theorems": [
    "Stoq.C110_matrices",
    "Stoq.C110_figure",
    "Stoq.C110_xeb"
   ],
   "note": ""
  }
 ]
}