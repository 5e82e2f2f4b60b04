{
 "claims": [
  {
   "property": "C01",
   "status": "proved",
   "theorems": [
    "C3.Quantity.C01_set_get",
    "C3.Quantity.C01_raise_unchanged",
    "C3.Quantity.setExtend_ok"
   ],
   "note": ""
  },
  {
   "property": "C02",
   "status": "proved",
   "theorems": [
    "C3.Quantity.C02_history_within_limits"
   ],
   "note": ""
  },
  {
   "property": "C03",
   "status": "proved",
   "theorems": [
    "C3.Quantity.C03_opt_in_limits",
    "C3.Quantity.C03_opt_identity",
    "C3.Quantity.C03_triangular_wave"
   ],
   "note": ""
  },
  {
   "property": "C04",
   "status": "proved",
   "theorems": [
    "C3.Quantity.C04_rejected_iff",
    "C3.Quantity.C04_accepted",
    "C3.Quantity.C04_tolerance"
   ],
   "note": ""
  },
  {
   "property": "C05",
   "status": "proved",
   "theorems": [
    "C3.Quantity.C05_extend"
   ],
   "note": ""
  },
  {
   "property": "C06",
   "status": "proved",
   "theorems": [
    "C3.Quantity.C06_asdict_roundtrip"
   ],
   "note": ""
  },
  {
   "property": "C07",
   "status": "partial",
   "theorems": [
    "C3.Quantity.arith_getValue",
    "C3.Quantity.C07_arith_partial",
    "C3.Quantity.C07_false"
   ],
   "note": "The code violates the property for units containing 'pi': the unit factor is applied twice. Proved for factor 1, exact law for all factors, negation with witness."
  },
  {
   "property": "C08",
   "status": "proved",
   "theorems": [
    "C3.Quantity.C08_default_limits",
    "C3.Quantity.C08_band",
    "C3.Quantity.mk'_wf"
   ],
   "note": ""
  },
  {
   "property": "C09",
   "status": "proved",
   "theorems": [
    "C3.PMap.C09_set_get_parameters"
   ],
   "note": ""
  },
  {
   "property": "C10",
   "status": "proved",
   "theorems": [
    "C3.PMap.C10_group_members"
   ],
   "note": ""
  },
  {
   "property": "C11",
   "status": "proved",
   "theorems": [
    "C3.PMap.C11_frame"
   ],
   "note": ""
  },
  {
   "property": "C12",
   "status": "proved",
   "theorems": [
    "C3.PMap.C12_length_mismatch",
    "C3.PMap.C12_failing_update"
   ],
   "note": ""
  },
  {
   "property": "C13",
   "status": "partial",
   "theorems": [
    "C3.PMap.C13_set_get_scaled",
    "C3.PMap.C13_get_set_scaled",
    "C3.PMap.C13_false_at_tolerance"
   ],
   "note": "Both directions proved for stored values in [-1,1]; a value stored just outside thanks to the closeness tolerance is mirrored by a read-write cycle (negation proved)."
  },
  {
   "property": "C14",
   "status": "proved",
   "theorems": [
    "C3.PMap.C14_key_from_index",
    "C3.PMap.C14_aligned"
   ],
   "note": ""
  },
  {
   "property": "C15",
   "status": "proved",
   "theorems": [
    "C3.PMap.C15_unknown_refused",
    "C3.PMap.C15_set_opt_map"
   ],
   "note": ""
  },
  {
   "property": "C16",
   "status": "partial",
   "theorems": [
    "C3.PMap.C16_false",
    "C3.PMap.C16_check_limits_partial"
   ],
   "note": "The code checks the previously installed map, not the new one: negation proved."
  },
  {
   "property": "C17",
   "status": "proved",
   "theorems": [
    "C3.PMap.C17_store_load",
    "C3.PMap.C17_load_succeeds"
   ],
   "note": ""
  },
  {
   "property": "C18",
   "status": "proved",
   "theorems": [
    "C3.PMap.C18_model_update",
    "C3.PMap.C18_stale_after_raise"
   ],
   "note": ""
  },
  {
   "property": "C19",
   "status": "proved",
   "theorems": [
    "C3.Fold.C19_folded_product",
    "C3.Fold.C19_matmul_left",
    "C3.Fold.C19_wrong_stack"
   ],
   "note": ""
  },
  {
   "property": "C20",
   "status": "proved",
   "theorems": [
    "C3.Fold.C20_batch_independent",
    "C3.Fold.C20_batch_sizes_agree"
   ],
   "note": ""
  },
  {
   "property": "C21",
   "status": "proved",
   "theorems": [
    "C3.Fold.C21_sequences",
    "C3.Fold.C21_concat",
    "C3.Fold.C21_empty",
    "C3.Fold.C21_unknown"
   ],
   "note": ""
  },
  {
   "property": "C22",
   "status": "proved",
   "theorems": [
    "C3.Propagation.C22_slice_unitary",
    "C3.Propagation.C22_gate_unitary",
    "C3.Propagation.C22_gate_unitary_no_signals"
   ],
   "note": "Without excitation cut (with it the propagator is zero outside of the kept space)."
  },
  {
   "property": "C23",
   "status": "proved",
   "theorems": [
    "C3.Propagation.C23_slicing",
    "C3.Propagation.C23_refine",
    "C3.Propagation.C23_slicing_no_signals",
    "C3.Propagation.C23_paths_agree"
   ],
   "note": ""
  },
  {
   "property": "C24",
   "status": "partial",
   "theorems": [
    "C3.Propagation.C24_generator_row",
    "C3.Propagation.C24_solves_master_equation",
    "C3.Propagation.C24_generator_own_vec_partial",
    "C3.Propagation.C24_false_for_own_vectorisation"
   ],
   "note": "The generator is right for row-stacked states, and its exponential solves the master equation; the code's tf_dm_to_vec stacks columns, for which the claim is false (negation proved)."
  },
  {
   "property": "C25",
   "status": "proved",
   "theorems": [
    "C3.Propagation.C25_slice_trace",
    "C3.Propagation.C25_gate_trace"
   ],
   "note": ""
  },
  {
   "property": "C26",
   "status": "partial",
   "theorems": [
    "C3.Propagation.C26_super_row",
    "C3.Propagation.C26_super_own_vec_partial",
    "C3.Propagation.C26_super_real_partial",
    "C3.Propagation.C26_populations_partial",
    "C3.Propagation.C26_false",
    "C3.Propagation.C26_super_mul"
   ],
   "note": "False for tf_dm_to_vec (negation proved): conj(U) acts instead of U. True for row stacking, real U, and populations of symmetric states."
  },
  {
   "property": "C27",
   "status": "proved",
   "theorems": [
    "C3.Propagation.C27_step_functions",
    "C3.Propagation.C27_schrodinger",
    "C3.Propagation.C27_trace_lindblad",
    "C3.Propagation.C27_trace_vonNeumann",
    "C3.Propagation.C27_hermitian_lindblad",
    "C3.Propagation.C27_hermitian_vonNeumann",
    "C3.Propagation.C27_trajectory"
   ],
   "note": ""
  },
  {
   "property": "C28",
   "status": "proved",
   "theorems": [
    "C3.Propagation.C28_trajectory",
    "C3.Propagation.C28_final_is_last",
    "C3.Propagation.C28_length",
    "C3.Propagation.C28_experiment"
   ],
   "note": ""
  },
  {
   "property": "C29",
   "status": "partial",
   "theorems": [
    "C3.Propagation.C29_times_partial",
    "C3.Propagation.C29_two_gates_partial",
    "C3.Propagation.C29_false"
   ],
   "note": "The code shifts each gate by the last stamp of its predecessor only: false from three gates on (negation proved); exact behaviour proved."
  },
  {
   "property": "C30",
   "status": "partial",
   "theorems": [
    "C3.Propagation.C30_rk4",
    "C3.Propagation.C30_rk38",
    "C3.Propagation.C30_rk5_partial",
    "C3.Propagation.C30_rk5_false",
    "C3.Propagation.C30_tsit5_partial",
    "C3.Propagation.C30_tsit5_quadrature"
   ],
   "note": "rk4 and rk38 proved; rk5 (and tsit5) end with the embedded fourth-order weights and are not of order five (negation proved)."
  },
  {
   "property": "C31",
   "status": "proved",
   "theorems": [
    "C3.Hilbert.C31_labels",
    "C3.Hilbert.C31_index",
    "C3.Hilbert.C31_inverse",
    "C3.Hilbert.C31_comp_labels"
   ],
   "note": ""
  },
  {
   "property": "C32",
   "status": "proved",
   "theorems": [
    "C3.Hilbert.C32_entries",
    "C3.Hilbert.C32_refused",
    "C3.Hilbert.C32_commute",
    "C3.Hilbert.C32_mul",
    "C3.Hilbert.C32_one",
    "C3.Hilbert.C32_adjoint"
   ],
   "note": ""
  },
  {
   "property": "C33",
   "status": "proved",
   "theorems": [
    "C3.Hilbert.C33_resonator",
    "C3.Hilbert.C33_duffing",
    "C3.Hilbert.C33_z_drive",
    "C3.Hilbert.C33_annihilator"
   ],
   "note": ""
  },
  {
   "property": "C34",
   "status": "proved",
   "theorems": [
    "C3.Hilbert.C34_cut_entries",
    "C3.Hilbert.C34_kept_states",
    "C3.Hilbert.C34_order",
    "C3.Hilbert.C34_cut_blowup",
    "C3.Hilbert.C34_blowup_cut",
    "C3.Hilbert.C34_hermitian"
   ],
   "note": ""
  },
  {
   "property": "C35",
   "status": "proved",
   "theorems": [
    "C3.Hilbert.C35_interactions",
    "C3.Hilbert.C35_single",
    "C3.Hilbert.C35_needs_model_operators",
    "C3.Hilbert.C35_model",
    "C3.Hilbert.C35_with_signal"
   ],
   "note": ""
  },
  {
   "property": "C36",
   "status": "partial",
   "theorems": [
    "C3.Hilbert.C36_well_dressed",
    "C3.Hilbert.C36_unordered",
    "C3.Hilbert.C36_fallback_partial",
    "C3.Hilbert.C36_basis_change",
    "C3.Hilbert.C36_false_fallback",
    "C3.Hilbert.C36_false_imaginary",
    "C3.Hilbert.C36_unordered_matrix",
    "C3.Hilbert.C36_first"
   ],
   "note": "Valid basis change for well dressed systems; the greedy fallback can lose a state and an imaginary overlap gets sign 0 (negations proved)."
  },
  {
   "property": "C37",
   "status": "proved",
   "theorems": [
    "C3.Hilbert.C37_diagonal",
    "C3.Hilbert.C37_unitary",
    "C3.Hilbert.C37_group",
    "C3.Hilbert.C37_no_lines",
    "C3.Hilbert.C37_unknown"
   ],
   "note": ""
  },
  {
   "property": "C38",
   "status": "proved",
   "theorems": [
    "C3.Hilbert.C38_is_phase_flips",
    "C3.Hilbert.C38_channel",
    "C3.Hilbert.C38_populations",
    "C3.Hilbert.C38_refused"
   ],
   "note": ""
  },
  {
   "property": "C39",
   "status": "proved",
   "theorems": [
    "C3.Hilbert.C39_signal",
    "C3.Hilbert.C39_refused",
    "C3.Hilbert.C39_unknown",
    "C3.Hilbert.C39_no_signal"
   ],
   "note": ""
  },
  {
   "property": "C40",
   "status": "partial",
   "theorems": [
    "C3.Hilbert.C40_populations_partial",
    "C3.Hilbert.C40_single_partial",
    "C3.Hilbert.C40_cross_term",
    "C3.Hilbert.C40_false_sum",
    "C3.Hilbert.C40_none"
   ],
   "note": "The operators are summed into one collapse operator: right for one channel and for populations of diagonal states; with relaxation and dephasing a coherence is created from the excited state (negation proved)."
  },
  {
   "property": "C41",
   "status": "partial",
   "theorems": [
    "C3.Hilbert.C41_qubit",
    "C3.Hilbert.C41_qubit_time",
    "C3.Hilbert.C41_transmon_partial",
    "C3.Hilbert.C41_false_transmon",
    "C3.Hilbert.C41_constants"
   ],
   "note": "Holds for Qubit; Transmon decays at 1/(2 T1) (negation proved)."
  },
  {
   "property": "C42",
   "status": "proved",
   "theorems": [
    "C3.Hilbert.C42_thermal",
    "C3.Hilbert.C42_ordered",
    "C3.Hilbert.C42_zero",
    "C3.Hilbert.C42_closed_refused"
   ],
   "note": ""
  },
  {
   "property": "C43",
   "status": "proved",
   "theorems": [
    "C3.Hilbert.C43_factor",
    "C3.Hilbert.C43_zero_flux",
    "C3.Hilbert.C43_periodic",
    "C3.Hilbert.C43_even",
    "C3.Hilbert.C43_range",
    "C3.Hilbert.C43_range_tight",
    "C3.Hilbert.C43_asymmetry",
    "C3.Hilbert.C43_asymmetry_ratio"
   ],
   "note": ""
  },
  {
   "property": "C44",
   "status": "proved",
   "theorems": [
    "C3.Chain.C44_loop_terminates",
    "C3.Chain.C44_devices_after_inputs"
   ],
   "note": ""
  },
  {
   "property": "C45",
   "status": "partial",
   "theorems": [
    "C3.Chain.C45_accepted_iff",
    "C3.Chain.C45_accepted_iff_acyclic_partial",
    "C3.Chain.C45_false_duplicate_source"
   ],
   "note": "Exact acceptance condition proved; a device naming the same source twice is reported as a cycle (negation proved)."
  },
  {
   "property": "C46",
   "status": "proved",
   "theorems": [
    "C3.Chain.C46_signal_is_graph_value",
    "C3.Chain.C46_graph_value_exists_unique",
    "C3.Chain.C46_independent_of_order"
   ],
   "note": ""
  },
  {
   "property": "C47",
   "status": "partial",
   "theorems": [
    "C3.Chain.C47_accepted_iff",
    "C3.Chain.C47_exactly_one_output_left_partial",
    "C3.Chain.C47_false_two_outputs_left",
    "C3.Chain.C47_false_depends_on_dictionary_order"
   ],
   "note": "Chains with two unused outputs are accepted when the last one in dictionary order is popped (negation proved); exact condition proved."
  },
  {
   "property": "C48",
   "status": "partial",
   "theorems": [
    "C3.Chain.C48_no_memory_partial",
    "C3.Chain.C48_oscillator_with_carrier_partial",
    "C3.Chain.C48_false_stale_oscillator",
    "C3.Chain.C48_false_stale_chain",
    "C3.Chain.C48_overwriting_devices"
   ],
   "note": "False for a local oscillator and an instruction without a carrier, where the previous signal is returned (negation proved)."
  },
  {
   "property": "C49",
   "status": "proved",
   "theorems": [
    "C3.Devices.C49_centred",
    "C3.Devices.C49_not_centred",
    "C3.Devices.C49_slice_number",
    "C3.Devices.C49_any_interval",
    "C3.Devices.C49_too_short"
   ],
   "note": ""
  },
  {
   "property": "C50",
   "status": "proved",
   "theorems": [
    "C3.Devices.C50_mixes_linearly",
    "C3.Devices.C50_identity",
    "C3.Devices.C50_compose",
    "C3.Devices.C50_missing_channel"
   ],
   "note": ""
  },
  {
   "property": "C51",
   "status": "proved",
   "theorems": [
    "C3.Devices.C51_linear_convolution",
    "C3.Devices.C51_causal",
    "C3.Devices.C51_linear",
    "C3.Devices.C51_legacy_delayed",
    "C3.Devices.C51_real_part"
   ],
   "note": ""
  },
  {
   "property": "C52",
   "status": "partial",
   "theorems": [
    "C3.Devices.C52_mixer",
    "C3.Devices.C52_mixer_symmetric",
    "C3.Devices.C52_volts_to_hertz",
    "C3.Devices.C52_offset_partial",
    "C3.Devices.C52_false_offset_shifts_time",
    "C3.Devices.C52_additive_noise",
    "C3.Devices.C52_zero_noise",
    "C3.Devices.C52_readout"
   ],
   "note": "DC_Offset also shifts the time stamps (negation proved); the other devices satisfy the claim."
  },
  {
   "property": "C53",
   "status": "partial",
   "theorems": [
    "C3.Timing.C53_get_timings",
    "C3.Timing.C53_trigger_timing_partial",
    "C3.Timing.C53_false_start_counted_twice",
    "C3.Timing.C53_gate_length"
   ],
   "note": "With a trigger the start time is counted twice (negation proved); exact timing proved."
  },
  {
   "property": "C54",
   "status": "partial",
   "theorems": [
    "C3.Timing.C54_auto_adjust_partial",
    "C3.Timing.C54_false_never_ends"
   ],
   "note": "The loop ends and is right when no component's end depends on the gate length; it never ends for a trigger without own length (negation proved)."
  },
  {
   "property": "C55",
   "status": "proved",
   "theorems": [
    "C3.Timing.C55_sum_of_components",
    "C3.Timing.C55_zero_outside"
   ],
   "note": "Zero outside means suppressed by at least exp(-499000): the code's mask is a product of sigmoids."
  },
  {
   "property": "C56",
   "status": "proved",
   "theorems": [
    "C3.Gates.C56_unitary",
    "C3.Gates.C56_unitary'",
    "C3.Gates.C56_inverse_pairs",
    "C3.Gates.C56_half_turns",
    "C3.Gates.C56_lookup",
    "C3.Gates.C56_rotation_unitary",
    "C3.Gates.C56_named_rotations",
    "C3.Gates.C56_keys"
   ],
   "note": "The whole table; the named gates are also identified with rotations by the angle in their name."
  },
  {
   "property": "C57",
   "status": "proved",
   "theorems": [
    "C3.Gates.C57_entries",
    "C3.Gates.C57_mul",
    "C3.Gates.C57_one",
    "C3.Gates.C57_adjoint",
    "C3.Gates.C57_unitary",
    "C3.Gates.C57_named",
    "C3.Gates.C57_refused"
   ],
   "note": "For distinct targets inside the register. Names that are not in the table: see C98."
  },
  {
   "property": "C58",
   "status": "proved",
   "theorems": [
    "C3.Timing.C58_net_zero",
    "C3.Timing.C58_halves"
   ],
   "note": "The sample list only: get_awg_signal passes a second argument that EnvelopeNetZero.get_shape_values does not accept."
  },
  {
   "property": "C59",
   "status": "proved",
   "theorems": [
    "C3.Gates.C59_names",
    "C3.Gates.C59_inverse",
    "C3.Gates.C59_unknown",
    "C3.Gates.C59_rb",
    "C3.Gates.C59_group"
   ],
   "note": "The test |2-|tr||<1e-4 of inverseC is modelled exactly over the complex numbers."
  },
  {
   "property": "C60",
   "status": "proved",
   "theorems": [
    "C3.Gates.C60_decomposition"
   ],
   "note": "Holds exactly, not only up to a phase."
  },
  {
   "property": "C61",
   "status": "partial",
   "theorems": [
    "C3.Fidelity.C61_value",
    "C3.Fidelity.C61_range",
    "C3.Fidelity.C61_phase",
    "C3.Fidelity.C61_default",
    "C3.Fidelity.C61_false_empty_index"
   ],
   "note": "Holds for every non-empty index of distinct subsystems, also with leakage; with an empty index list the value can be -3 (negation proved)."
  },
  {
   "property": "C62",
   "status": "proved",
   "theorems": [
    "C3.Fidelity.C62_state"
   ],
   "note": ""
  },
  {
   "property": "C63",
   "status": "proved",
   "theorems": [
    "C3.Fidelity.C63_value",
    "C3.Fidelity.C63_range",
    "C3.Fidelity.C63_paulis"
   ],
   "note": ""
  },
  {
   "property": "C64",
   "status": "proved",
   "theorems": [
    "C3.Fidelity.C64_entries",
    "C3.Fidelity.C64_submatrix",
    "C3.Fidelity.C64_refused",
    "C3.Fidelity.C64_super_entries",
    "C3.Fidelity.C64_super"
   ],
   "note": ""
  },
  {
   "property": "C65",
   "status": "proved",
   "theorems": [
    "C3.Experiment.C65_closed",
    "C3.Experiment.C65_unknown",
    "C3.Experiment.C65_open",
    "C3.Experiment.C65_open_closed",
    "C3.Experiment.C65_implementations"
   ],
   "note": ""
  },
  {
   "property": "C66",
   "status": "partial",
   "theorems": [
    "C3.Gates.C66_t1",
    "C3.Gates.C66_ramsey",
    "C3.Gates.C66_echo",
    "C3.Gates.C66_echo_symmetric",
    "C3.Gates.C66_ideal",
    "C3.Gates.C66_rb",
    "C3.Gates.C66_tomography",
    "C3.Gates.C66_tomography_gates",
    "C3.Gates.C66_tomography_complete"
   ],
   "note": "False for the echo sequence with an odd length: it has one wait less (C66_echo proves both directions). Everything else holds."
  },
  {
   "property": "C67",
   "status": "proved",
   "theorems": [
    "C3.Experiment.C67_probability",
    "C3.Experiment.C67_entries",
    "C3.Experiment.C67_refused"
   ],
   "note": ""
  },
  {
   "property": "C68",
   "status": "proved",
   "theorems": [
    "C3.Experiment.Compute.C68_selected",
    "C3.Experiment.Compute.C68_succeeds_iff",
    "C3.Experiment.Compute.C68_unknown",
    "C3.Experiment.Compute.C68_dephasing",
    "C3.Experiment.Compute.C68_raise_keeps",
    "C3.Experiment.Compute.C68_stored",
    "C3.Experiment.Compute.C68_history",
    "C3.Experiment.Compute.C68_set_opt",
    "C3.Experiment.Compute.C68_set_seq",
    "C3.Experiment.Compute.C68_order",
    "C3.Experiment.Compute.C68_methods"
   ],
   "note": "For experiments constructed with the default propagation method; see C111 for the others."
  },
  {
   "property": "C69",
   "status": "proved",
   "theorems": [
    "C3.Experiment.C69_plain",
    "C3.Experiment.C69_confused",
    "C3.Experiment.C69_unknown",
    "C3.Experiment.C69_vector",
    "C3.Experiment.C69_range"
   ],
   "note": ""
  },
  {
   "property": "C70",
   "status": "partial",
   "theorems": [
    "C3.Optim.C70_best_partial",
    "C3.Optim.C70_log",
    "C3.Optim.C70_false_large"
   ],
   "note": "Goals not below the initial 9876543210.12 never become best points (negation proved)."
  },
  {
   "property": "C71",
   "status": "partial",
   "theorems": [
    "C3.Optim.C71_prefix_partial",
    "C3.Optim.C71_complete",
    "C3.Optim.C71_false",
    "C3.Optim.C71_log"
   ],
   "note": "Opening truncates the best-point file, so a crash can leave neither point (negation proved); the log file is safe."
  },
  {
   "property": "C72",
   "status": "partial",
   "theorems": [
    "C3.Optim.C72_history",
    "C3.Optim.C72_immediate",
    "C3.Optim.C72_second_raises",
    "C3.Optim.C72_queried_partial",
    "C3.Optim.C72_clean",
    "C3.Optim.C72_false_round",
    "C3.Optim.C72_false_long"
   ],
   "note": "Gradients are keyed by the printed vector, so close or long vectors collide (negation proved)."
  },
  {
   "property": "C73",
   "status": "partial",
   "theorems": [
    "C3.Optim.C73_scalar_partial",
    "C3.Optim.C73_autograd",
    "C3.Optim.C73_false_fold",
    "C3.Optim.C73_false_vector"
   ],
   "note": "fct_to_min logs unfolded values and drops entries of vector parameters (negations proved)."
  },
  {
   "property": "C74",
   "status": "partial",
   "theorems": [
    "C3.Optim.Sampling.C74_complement_partial",
    "C3.Optim.Sampling.C74_same_draw",
    "C3.Optim.Sampling.C74_random_false",
    "C3.Optim.Sampling.C74_random_overlap",
    "C3.Optim.Sampling.C74_all_empty"
   ],
   "note": "random_sample is drawn again for the validation (negation proved); all other methods give the exact complement."
  },
  {
   "property": "C75",
   "status": "partial",
   "theorems": [
    "C3.Optim.Sampling.C75_samplers_partial",
    "C3.Optim.Sampling.C75_valid",
    "C3.Optim.Sampling.C75_all_false",
    "C3.Optim.Sampling.C75_zero_false",
    "C3.Optim.Sampling.C75_empty_even",
    "C3.Optim.Sampling.C75_ends",
    "C3.Optim.Sampling.C75_even",
    "C3.Optim.Sampling.C75_even_fewer",
    "C3.Optim.Sampling.C75_negative"
   ],
   "note": "`all` ignores the batch size, batch size zero selects everything in from_end and high_std (negations proved)."
  },
  {
   "property": "C76",
   "status": "proved",
   "theorems": [
    "C3.Optim.Est.C76_pooled",
    "C3.Optim.Est.C76_multinom",
    "C3.Optim.Est.C76_gradient",
    "C3.Optim.Est.C76_empty_set",
    "C3.Optim.Est.C76_nothing"
   ],
   "note": ""
  },
  {
   "property": "C77",
   "status": "partial",
   "theorems": [
    "C3.Optim.Alg.C77_whole_partial",
    "C3.Optim.Alg.C77_fractional_false",
    "C3.Optim.Alg.C77_never",
    "C3.Optim.Alg.C77_truncated"
   ],
   "note": "The requested size is truncated to an integer, so sizes below one never stop the run (negation proved)."
  },
  {
   "property": "C78",
   "status": "partial",
   "theorems": [
    "C3.Optim.Alg.C78_sweep_partial",
    "C3.Optim.Alg.C78_init_outside",
    "C3.Optim.Alg.C78_one_point",
    "C3.Optim.Alg.C78_empty_probes",
    "C3.Optim.Alg.C78_reversed_false",
    "C3.Optim.Alg.C78_wrapper",
    "C3.Optim.Alg.C78_grid",
    "C3.Optim.Alg.C78_grid_wrapper"
   ],
   "note": "Initial point outside the bounds, a single point, empty probe list and reversed bounds with probes are exceptions, each proved."
  },
  {
   "property": "C79",
   "status": "partial",
   "theorems": [
    "C3.Qiskit.C79_counts_partial",
    "C3.Qiskit.C79_exact",
    "C3.Qiskit.C79_sum_false"
   ],
   "note": "Each count is rounded by itself, so they need not sum to the shots (negation proved)."
  },
  {
   "property": "C80",
   "status": "partial",
   "theorems": [
    "C3.Qiskit.C80_right_iff",
    "C3.Qiskit.C80_odd_partial",
    "C3.Qiskit.C80_merge_false",
    "C3.Qiskit.C80_double"
   ],
   "note": "flip_labels reverses labels after stripping leading zeros, so labels merge (negation proved)."
  },
  {
   "property": "C81",
   "status": "partial",
   "theorems": [
    "C3.Qiskit.C81_known_partial",
    "C3.Qiskit.C81_first_false",
    "C3.Qiskit.C81_history",
    "C3.Qiskit.C81_qubits",
    "C3.Qiskit.C81_sticky_false",
    "C3.Qiskit.C81_norm",
    "C3.Qiskit.C81_result"
   ],
   "note": "The first run refuses every initial vector and a given vector stays for later runs (negations proved)."
  },
  {
   "property": "C82",
   "status": "partial",
   "theorems": [
    "C3.Envelopes.C82_drag",
    "C3.Envelopes.C82_gaussian_partial",
    "C3.Envelopes.C82_sign_false"
   ],
   "note": "The derivative envelopes of the Gaussian have the wrong sign (negation proved); dragged ones are right."
  },
  {
   "property": "C83",
   "status": "partial",
   "theorems": [
    "C3.Envelopes.C83_gaussian_nonorm",
    "C3.Envelopes.C83_gaussian_sigma",
    "C3.Envelopes.C83_flattop",
    "C3.Envelopes.C83_flattop_cut_center",
    "C3.Envelopes.C83_cosine",
    "C3.Envelopes.C83_trapezoid_partial",
    "C3.Envelopes.C83_trapezoid_false",
    "C3.Envelopes.C83_pwc_symmetric",
    "C3.Envelopes.C83_slepian",
    "C3.Envelopes.C83_slepian_norm",
    "C3.Envelopes.C83_flattop_cut",
    "C3.Envelopes.C83_cosine_flattop",
    "C3.Envelopes.C83_flattop_variant",
    "C3.Envelopes.C83_flattop_edges"
   ],
   "note": "The trapezoid only with slopes fitting into the pulse (negation otherwise); flattop_variant does not vanish at its ends."
  },
  {
   "property": "C84",
   "status": "partial",
   "theorems": [
    "C3.Chip.C84_flux",
    "C3.Chip.C84_flux_all_partial",
    "C3.Chip.C84_flux_signal_partial",
    "C3.Chip.C84_signal_false",
    "C3.Chip.C84_fluxonium",
    "C3.Chip.C84_periodic"
   ],
   "note": "All hard-coded derivatives are right; orders above four drop the flux signal (negation proved)."
  },
  {
   "property": "C85",
   "status": "proved",
   "theorems": [
    "C3.Utils.C85_flatten",
    "C3.Utils.C85_idempotent"
   ],
   "note": ""
  },
  {
   "property": "C86",
   "status": "partial",
   "theorems": [
    "C3.Utils.C86_engNum_partial",
    "C3.Utils.C86_zero",
    "C3.Utils.C86_sign_false"
   ],
   "note": "Negative numbers beyond the prefix table lose their sign (negation proved)."
  },
  {
   "property": "C87",
   "status": "partial",
   "theorems": [
    "C3.Quantity.C87_explicit_limits",
    "C3.Quantity.C87_false_swapped"
   ],
   "note": "Holds for min < max; false when the limits are given in the wrong order."
  },
  {
   "property": "C88",
   "status": "partial",
   "theorems": [
    "C3.Propagation.C88_real_partial",
    "C3.Propagation.C88_false"
   ],
   "note": "tf_state_to_dm omits the conjugation of the bra: true for real kets, negation proved."
  },
  {
   "property": "C89",
   "status": "proved",
   "theorems": [
    "C3.Propagation.C89_slice",
    "C3.Propagation.C89_gate"
   ],
   "note": ""
  },
  {
   "property": "C90",
   "status": "proved",
   "theorems": [
    "C3.Propagation.C90_tfExpm",
    "C3.Propagation.C90_tendsto"
   ],
   "note": ""
  },
  {
   "property": "C91",
   "status": "partial",
   "theorems": [
    "C3.Propagation.C91_sample_times",
    "C3.Propagation.C91_steps",
    "C3.Propagation.C91_nodes_consistent"
   ],
   "note": "Sample times for all four solvers; consistency of nodes and tableau for rk4, rk38 and rk5 (the decimals of tsit5 are only consistent up to rounding)."
  },
  {
   "property": "C92",
   "status": "proved",
   "theorems": [
    "C3.Devices.C92_highpass"
   ],
   "note": ""
  },
  {
   "property": "C93",
   "status": "proved",
   "theorems": [
    "C3.Devices.C93_step_response",
    "C3.Devices.C93_step_filter"
   ],
   "note": ""
  },
  {
   "property": "C94",
   "status": "proved",
   "theorems": [
    "C3.Devices.C94_no_overshoot",
    "C3.Devices.C94_unit_gain"
   ],
   "note": ""
  },
  {
   "property": "C95",
   "status": "proved",
   "theorems": [
    "C3.Devices.C95_repeats_samples",
    "C3.Devices.C95_hold"
   ],
   "note": ""
  },
  {
   "property": "C96",
   "status": "partial",
   "theorems": [
    "C3.Timing.C96_passes_inside_partial",
    "C3.Timing.C96_false_last_sample"
   ],
   "note": "The mask ends at 0.999 of the pulse length: the last samples of long pulses are removed (negation proved)."
  },
  {
   "property": "C97",
   "status": "proved",
   "theorems": [
    "C3.Hilbert.C97_flux_is_transmon_shift",
    "C3.Hilbert.C97_zero_signal",
    "C3.Hilbert.C97_coupling",
    "C3.Hilbert.C97_one_input"
   ],
   "note": ""
  },
  {
   "property": "C98",
   "status": "proved",
   "theorems": [
    "C3.Gates.C98_unknown_gate"
   ],
   "note": "Behaviour of the code for a gate name without a table entry: no exception, a non-unitary ideal gate."
  },
  {
   "property": "C99",
   "status": "proved",
   "theorems": [
    "C3.Gates.C99_rotation",
    "C3.Gates.C99_entries",
    "C3.Gates.C99_single",
    "C3.Gates.C99_group",
    "C3.Gates.C99_unknown"
   ],
   "note": ""
  },
  {
   "property": "C100",
   "status": "proved",
   "theorems": [
    "C3.Fidelity.C100_average_seq",
    "C3.Fidelity.C100_state_set"
   ],
   "note": ""
  },
  {
   "property": "C101",
   "status": "proved",
   "theorems": [
    "C3.Fidelity.C101_never_returns"
   ],
   "note": ""
  },
  {
   "property": "C102",
   "status": "proved",
   "theorems": [
    "C3.Fidelity.C102_agree"
   ],
   "note": ""
  },
  {
   "property": "C103",
   "status": "proved",
   "theorems": [
    "C3.Fidelity.C103_never_returns",
    "C3.Fidelity.C103_intended"
   ],
   "note": ""
  },
  {
   "property": "C104",
   "status": "proved",
   "theorems": [
    "C3.Fidelity.C104_orbit_range",
    "C3.Fidelity.C104_orbit_ideal"
   ],
   "note": "Without shots and noise."
  },
  {
   "property": "C105",
   "status": "proved",
   "theorems": [
    "C3.Fidelity.C105_rb_raises",
    "C3.Fidelity.C105_epg",
    "C3.Fidelity.C105_point"
   ],
   "note": "The fit is an arbitrary function with results in the bounds."
  },
  {
   "property": "C106",
   "status": "partial",
   "theorems": [
    "C3.Fidelity.C106_data_partial",
    "C3.Fidelity.C106_false_refit",
    "C3.Fidelity.C106_rates",
    "C3.Fidelity.C106_order"
   ],
   "note": "Points added after a failed fit use the ground state population for the computational one (negation proved)."
  },
  {
   "property": "C107",
   "status": "partial",
   "theorems": [
    "C3.Fidelity.C107_diagonal_partial",
    "C3.Fidelity.C107_false_coherent"
   ],
   "note": "The square root is taken entry by entry: right for states without coherences only (negation proved)."
  },
  {
   "property": "C108",
   "status": "partial",
   "theorems": [
    "C3.Experiment.C108_real_partial",
    "C3.Experiment.C108_open",
    "C3.Experiment.C108_false"
   ],
   "note": "expect_oper builds the density matrix without conjugation, so only real operators or states come out right (negation proved)."
  },
  {
   "property": "C109",
   "status": "partial",
   "theorems": [
    "C3.Experiment.C109_closed",
    "C3.Experiment.C109_stable",
    "C3.Experiment.C109_false_open",
    "C3.Experiment.C109_false_set",
    "C3.Experiment.C109_thermal_partial"
   ],
   "note": "Open systems without a thermal preparation task get a matrix instead of a vector (negation proved)."
  },
  {
   "property": "C110",
   "status": "partial",
   "theorems": [
    "C3.Experiment.C110_set_closed",
    "C3.Experiment.C110_vector",
    "C3.Experiment.C110_ket",
    "C3.Experiment.C110_false_toggle",
    "C3.Experiment.C110_ignored"
   ],
   "note": "Switching open-system dynamics on and off leaves a density matrix (negation proved)."
  },
  {
   "property": "C111",
   "status": "partial",
   "theorems": [
    "C3.Experiment.Compute.C111_default_partial",
    "C3.Experiment.Compute.C111_false_name",
    "C3.Experiment.Compute.C111_false_set",
    "C3.Experiment.Compute.C111_unknown"
   ],
   "note": "Named methods fail for lack of a folding stack, set_prop_method has no effect on compute_propagators (negations proved)."
  },
  {
   "property": "C112",
   "status": "partial",
   "theorems": [
    "C3.Optim.C112_map_partial",
    "C3.Optim.C112_best_partial",
    "C3.Optim.C112_false_range",
    "C3.Optim.C112_no_file"
   ],
   "note": "Fails for best proposals outside the range (negation proved)."
  },
  {
   "property": "C113",
   "status": "proved",
   "theorems": [
    "C3.Optim.Sampling.C113_high_std",
    "C3.Optim.Sampling.C113_even_fid"
   ],
   "note": ""
  },
  {
   "property": "C114",
   "status": "partial",
   "theorems": [
    "C3.Optim.Est.C114_minimum",
    "C3.Optim.Est.C114_deterministic",
    "C3.Optim.Est.C114_expectation"
   ],
   "note": "Not a number if a simulated probability is exactly 0 or 1 (proved); everything else holds."
  },
  {
   "property": "C115",
   "status": "proved",
   "theorems": [
    "C3.Optim.Est.C115_relations",
    "C3.Optim.Est.C115_density",
    "C3.Optim.Est.C115_spread"
   ],
   "note": ""
  },
  {
   "property": "C116",
   "status": "partial",
   "theorems": [
    "C3.Optim.Alg.C116_convergence_partial",
    "C3.Optim.Alg.C116_early_false"
   ],
   "note": "Stops one shrinking generation too early (negation proved)."
  },
  {
   "property": "C117",
   "status": "partial",
   "theorems": [
    "C3.Optim.Alg.C117_noise",
    "C3.Optim.Alg.C117_batch_noise_false",
    "C3.Optim.Alg.C117_init_point"
   ],
   "note": "batch_noise has no effect (negation proved)."
  },
  {
   "property": "C118",
   "status": "partial",
   "theorems": [
    "C3.Optim.Alg.C118_rest_partial",
    "C3.Optim.Alg.C118_second_run_false",
    "C3.Optim.Alg.C118_witness"
   ],
   "note": "Custom options are taken out of the dictionary by the first run (negation proved)."
  },
  {
   "property": "C119",
   "status": "partial",
   "theorems": [
    "C3.Qiskit.C119_all_states_partial",
    "C3.Qiskit.C119_dims_false",
    "C3.Qiskit.C119_first_largest"
   ],
   "note": "Labels come from the largest level count; unequal level counts lose states (negation proved)."
  },
  {
   "property": "C120",
   "status": "proved",
   "theorems": [
    "C3.Envelopes.C120_area",
    "C3.Envelopes.C120_outside"
   ],
   "note": ""
  },
  {
   "property": "C121",
   "status": "proved",
   "theorems": [
    "C3.Envelopes.C121_node",
    "C3.Envelopes.C121_linear",
    "C3.Envelopes.C121_outside",
    "C3.Envelopes.C121_bounded"
   ],
   "note": ""
  },
  {
   "property": "C122",
   "status": "partial",
   "theorems": [
    "C3.Envelopes.C122_plateau_partial",
    "C3.Envelopes.C122_slepian_partial",
    "C3.Envelopes.C122_end_false",
    "C3.Envelopes.C122_start_false",
    "C3.Envelopes.C122_slepian_false"
   ],
   "note": "The sample exactly at the end of the plateau is not mapped, and pwc_shape_plateau assumes a grid starting at zero (negations proved)."
  },
  {
   "property": "C123",
   "status": "partial",
   "theorems": [
    "C3.Envelopes.C123_vector_partial",
    "C3.Envelopes.C123_column_false",
    "C3.Envelopes.C123_pwc",
    "C3.Envelopes.C123_one_sample"
   ],
   "note": "pwc_shape and pwc_shape_plateau give a matrix, cosine_flattop raises (negations proved)."
  },
  {
   "property": "C124",
   "status": "partial",
   "theorems": [
    "C3.Chip.C124_constant_partial",
    "C3.Chip.C124_first",
    "C3.Chip.C124_stale_false",
    "C3.Chip.C124_unnoticed_false",
    "C3.Chip.C124_opposite",
    "C3.Chip.C124_fluxonium_false",
    "C3.Chip.C124_fluxonium_signal"
   ],
   "note": "The table of minima is not cleared on parameter changes; the fluxonium cannot build it (negations proved)."
  },
  {
   "property": "C125",
   "status": "partial",
   "theorems": [
    "C3.Experiment.Compute.C125_partial",
    "C3.Experiment.Compute.C125_false_dephasing"
   ],
   "note": "The code calls get_average_amp without its argument and raises; without a dephasing strength no channel is applied, as it should be (negation proved)."
  },
  {
   "property": "C126",
   "status": "partial",
   "theorems": [
    "C3.PMap.C126_scaled_partial",
    "C3.PMap.C126_argument",
    "C3.PMap.C126_false_refused",
    "C3.PMap.C126_false_no_model",
    "C3.PMap.C126_false_argument"
   ],
   "note": "Holds after an accepted set_opt_map on a map with a model; false after a refused one, without a model, and an explicit map is ignored (negations proved)."
  },
  {
   "property": "C127",
   "status": "partial",
   "theorems": [
    "C3.Config.C127_roundtrip_partial",
    "C3.Config.C127_exact_partial",
    "C3.Config.C127_false_tuple",
    "C3.Config.C127_false_reserved",
    "C3.Config.C127_false_unreadable"
   ],
   "note": "Holds up to tuples becoming lists and without reserved keys (negations proved)."
  },
  {
   "property": "C128",
   "status": "partial",
   "theorems": [
    "C3.Config.Instr.C128_roundtrip_partial",
    "C3.Config.Instr.C128_stable",
    "C3.Config.Instr.C128_false_start",
    "C3.Config.Instr.C128_false_before",
    "C3.Config.Instr.C128_false_samples",
    "C3.Config.Instr.C128_false_objects",
    "C3.Config.Instr.C128_false_shape",
    "C3.Config.Instr.C128_defaults",
    "C3.Config.Instr.C128_before"
   ],
   "note": "Start time, samples, objects and unregistered shapes are lost or refused (negations proved); everything else survives and a second cycle changes nothing."
  },
  {
   "property": "C129",
   "status": "partial",
   "theorems": [
    "C3.Config.Instr.C129_copy_partial",
    "C3.Config.Instr.C129_values",
    "C3.Config.Instr.C129_false_key",
    "C3.Config.Instr.C129_false_ideal",
    "C3.Config.Instr.C129_unknown"
   ],
   "note": "The copy has the components of the original; a gate can be stored under a key that is not its own and keeps the old ideal unitary (negations proved)."
  },
  {
   "property": "C130",
   "status": "partial",
   "theorems": [
    "C3.Config.Dev.C130_reload_partial",
    "C3.Config.Dev.C130_ports",
    "C3.Config.Dev.C130_needed",
    "C3.Config.Dev.C130_false_crosstalk",
    "C3.Config.Dev.C130_false_register",
    "C3.Config.Dev.C130_false_keyword",
    "C3.Config.Dev.C130_false_lonoise",
    "C3.Config.Dev.C130_false_pink",
    "C3.Config.Dev.C130_false_coupling",
    "C3.Config.Dev.C130_false_coupling_signal",
    "C3.Config.Dev.C130_register",
    "C3.Config.Dev.C130_settings",
    "C3.Config.Dev.C130_coupling_rest"
   ],
   "note": "Holds for the classes that store their settings as parameters; several classes lose settings or cannot be rebuilt (negations proved)."
  },
  {
   "property": "C131",
   "status": "partial",
   "theorems": [
    "C3.Config.Mdl.C131_roundtrip_partial",
    "C3.Config.Mdl.C131_false_settings",
    "C3.Config.Mdl.C131_reads_dressed",
    "C3.Config.Mdl.C131_settings"
   ],
   "note": "Components, tasks and the excitation limit survive; dressed basis, open system, rotating frame and dephasing do not (negation proved)."
  },
  {
   "property": "C132",
   "status": "partial",
   "theorems": [
    "C3.Config.Mdl.C132_components_partial",
    "C3.Config.Mdl.C132_driven",
    "C3.Config.Mdl.C132_refused",
    "C3.Config.Mdl.C132_false_duplicate",
    "C3.Config.Mdl.C132_false_no_couplings"
   ],
   "note": "Holds for distinct names; two components of one kind with the same name are merged silently, and a model without couplings raises (negations proved)."
  },
  {
   "property": "C133",
   "status": "partial",
   "theorems": [
    "C3.Timing.C133_questions_partial",
    "C3.Timing.C133_false_after_length",
    "C3.Timing.C133_false_after_change"
   ],
   "note": "Holds for every sequence of questions right after the reset in get_awg_signal; false after get_full_gate_length and after parameter changes (negations proved)."
  },
  {
   "property": "C134",
   "status": "partial",
   "theorems": [
    "C3.Ids.C134_found_partial",
    "C3.Ids.C134_false_device",
    "C3.Ids.C134_false_dash",
    "C3.Ids.C134_false_option"
   ],
   "note": "Holds without dashes in names and without name clashes; false otherwise (negations proved)."
  },
  {
   "property": "C135",
   "status": "partial",
   "theorems": [
    "C3.Ids.C135_rest_partial",
    "C3.Ids.C135_false_twice",
    "C3.Ids.C135_unknown"
   ],
   "note": "Holds if the map names each identifier once; otherwise KeyError (negation proved)."
  },
  {
   "property": "C136",
   "status": "partial",
   "theorems": [
    "C3.Propagation.C136_gate_partial",
    "C3.Propagation.C136_constant_partial",
    "C3.Propagation.C136_transposed",
    "C3.Propagation.C136_false_dus",
    "C3.Propagation.C136_false_last",
    "C3.Propagation.C136_false_duration"
   ],
   "note": "The gate is the product of the Runge-Kutta steps; the partial propagators are transposed and the last sample is left out (negations proved)."
  },
  {
   "property": "C137",
   "status": "partial",
   "theorems": [
    "C3.Propagation.C137_supported_partial",
    "C3.Propagation.C137_iff",
    "C3.Propagation.C137_false_limit",
    "C3.Propagation.C137_false_open"
   ],
   "note": "Exact list of the settings that work; an excitation limit with separate controls and open systems without them raise (negations proved)."
  },
  {
   "property": "C138",
   "status": "proved",
   "theorems": [
    "C3.Propagation.C138_exact",
    "C3.Propagation.C138_unitary"
   ],
   "note": ""
  },
  {
   "property": "C139",
   "status": "partial",
   "theorems": [
    "C3.Propagation.C139_intended_partial",
    "C3.Propagation.C139_false_drift",
    "C3.Propagation.C139_false_witness"
   ],
   "note": "The drift is applied twice (negation proved for every drift with real eigenvectors)."
  },
  {
   "property": "C140",
   "status": "partial",
   "theorems": [
    "C3.Propagation.C140_series_partial",
    "C3.Propagation.C140_false_accuracy"
   ],
   "note": "The loop ends and sums the series up to the first small term; the error can exceed the accuracy (negation proved)."
  },
  {
   "property": "C141",
   "status": "proved",
   "theorems": [
    "C3.Devices.C141_mixed",
    "C3.Devices.C141_pulse",
    "C3.Devices.C141_quick_setup",
    "C3.Devices.C141_no_sideband"
   ],
   "note": ""
  },
  {
   "property": "C142",
   "status": "partial",
   "theorems": [
    "C3.Devices.C142_sources_partial",
    "C3.Devices.C142_false_both",
    "C3.Devices.C142_unit_circle"
   ],
   "note": "Holds unless phase and frequency noise are both on; then one of them has no effect (negation proved)."
  },
  {
   "property": "C143",
   "status": "partial",
   "theorems": [
    "C3.Devices.C143_values_partial",
    "C3.Devices.C143_flip",
    "C3.Devices.C143_step",
    "C3.Devices.C143_false_rates"
   ],
   "note": "The values are right; the slowest rate is N^(ln 10) instead of N (negation proved)."
  },
  {
   "property": "C144",
   "status": "partial",
   "theorems": [
    "C3.Devices.C144_zero_start_partial",
    "C3.Devices.C144_false_start",
    "C3.Devices.C144_responses"
   ],
   "note": "Holds for instructions that start at time zero; false for other starts (negation proved)."
  },
  {
   "property": "C145",
   "status": "partial",
   "theorems": [
    "C3.Devices.C145_other_samples_partial",
    "C3.Devices.C145_false_constant",
    "C3.Devices.C145_symmetric"
   ],
   "note": "The centre of the response is replaced instead of increased by one, so constants pass (negation proved)."
  },
  {
   "property": "C146",
   "status": "partial",
   "theorems": [
    "C3.Optim.C146_mean_partial",
    "C3.Optim.C146_mean_example",
    "C3.Optim.C146_counter",
    "C3.Optim.C146_false_gradient_free",
    "C3.Optim.C146_false_restore"
   ],
   "note": "The mean is right with gradients; without gradients the noise has no effect, a refused noise value is not undone, and all evaluations of one mean have the same number (negations proved)."
  },
  {
   "property": "C147",
   "status": "partial",
   "theorems": [
    "C3.Optim.C147_sweep_partial",
    "C3.Optim.C147_example",
    "C3.Optim.C147_false_leftover"
   ],
   "note": "Swept parameters stay at the last point during the later sweeps (negation proved)."
  },
  {
   "property": "C148",
   "status": "partial",
   "theorems": [
    "C3.Optim.C148_validated_partial",
    "C3.Optim.C148_false_last"
   ],
   "note": "The last evaluated parameters are validated, not the best (negation proved)."
  },
  {
   "property": "C149",
   "status": "partial",
   "theorems": [
    "C3.Optim.C149_simulated_partial",
    "C3.Optim.C149_false_overlap"
   ],
   "note": "Holds if no gate parameter is learned; otherwise the data set wins (negation proved)."
  },
  {
   "property": "C150",
   "status": "proved",
   "theorems": [
    "C3.Hilbert.C150_component",
    "C3.Hilbert.C150_drift",
    "C3.Hilbert.C150_control"
   ],
   "note": ""
  },
  {
   "property": "C151",
   "status": "partial",
   "theorems": [
    "C3.Hilbert.C151_zero",
    "C3.Hilbert.C151_half_temperature_partial",
    "C3.Hilbert.C151_transmon_partial",
    "C3.Hilbert.C151_false_temperature",
    "C3.Hilbert.C151_false_flux"
   ],
   "note": "The rates are in detailed balance at half of the given temperature, and for a transmon with the frequency at zero flux (negations proved)."
  },
  {
   "property": "C152",
   "status": "proved",
   "theorems": [
    "C3.Hilbert.C152_dephasing"
   ],
   "note": ""
  },
  {
   "property": "C153",
   "status": "partial",
   "theorems": [
    "C3.Chip.C153_expansion",
    "C3.Chip.C153_hermitian",
    "C3.Chip.C153_false_half_flux",
    "C3.Chip.C153_defined"
   ],
   "note": "Exact for every flux with a nonzero flux factor; at half a flux quantum of a symmetric transmon the prefactors are NaN (negation proved)."
  },
  {
   "property": "C154",
   "status": "partial",
   "theorems": [
    "C3.Chip.C154_fit_partial",
    "C3.Chip.C154_guess",
    "C3.Chip.C154_false_levels",
    "C3.Chip.C154_false_three"
   ],
   "note": "The starting point and the cost are right, but one level is missing in the fit, and elements with two or three levels raise (negations proved)."
  },
  {
   "property": "C155",
   "status": "partial",
   "theorems": [
    "C3.Chip.C155_potential_partial",
    "C3.Chip.C155_false_hermitian",
    "C3.Chip.C155_cosine",
    "C3.Chip.C155_phase_hermitian",
    "C3.Chip.C155_conjugate"
   ],
   "note": "The potential is Hermitian; the charge enters linearly and breaks hermiticity (negation proved)."
  },
  {
   "property": "C156",
   "status": "proved",
   "theorems": [
    "C3.Chip.C156_flux_levels"
   ],
   "note": ""
  },
  {
   "property": "C157",
   "status": "partial",
   "theorems": [
    "C3.Envelopes.C157_drag_partial",
    "C3.Envelopes.C157_before_rest_partial",
    "C3.Envelopes.C157_false_before"
   ],
   "note": "Holds without use_t_before; with it the first two samples are wrong (negation proved). The mask is not differentiated in the model."
  },
  {
   "property": "C158",
   "status": "partial",
   "theorems": [
    "C3.Envelopes.C158_values",
    "C3.Envelopes.C158_rest_partial",
    "C3.Envelopes.C158_false_replaced",
    "C3.Envelopes.C158_false_replaced_others",
    "C3.Envelopes.C158_false_write",
    "C3.Envelopes.C158_repeat"
   ],
   "note": "The values are right; evaluating replaces the width by a new object, so that later writes to the old one are lost (negations proved)."
  },
  {
   "property": "C159",
   "status": "partial",
   "theorems": [
    "C3.Envelopes.C159_samples_partial",
    "C3.Envelopes.C159_false_shift",
    "C3.Envelopes.C159_false_tie"
   ],
   "note": "Nearest to one nanosecond after the given time; ties give two samples (negations proved)."
  },
  {
   "property": "C160",
   "status": "proved",
   "theorems": [
    "C3.Envelopes.C160_bounded",
    "C3.Envelopes.C160_cos",
    "C3.Envelopes.C160_linear"
   ],
   "note": ""
  },
  {
   "property": "C161",
   "status": "partial",
   "theorems": [
    "C3.Qiskit.Run.C161_located",
    "C3.Qiskit.Run.C161_size",
    "C3.Qiskit.Run.C161_gates_partial",
    "C3.Qiskit.Run.C161_unknown",
    "C3.Qiskit.Run.C161_deferred",
    "C3.Qiskit.Run.C161_false_empty",
    "C3.Qiskit.Run.C161_false_middle"
   ],
   "note": "Holds for circuits with a gate and measurements at the end; circuits without gates raise, and measurements in the middle report the final state (negations proved)."
  },
  {
   "property": "C162",
   "status": "partial",
   "theorems": [
    "C3.Qiskit.Run.C162_fresh",
    "C3.Qiskit.Run.C162_once",
    "C3.Qiskit.Run.C162_independent_partial",
    "C3.Qiskit.Run.C162_false_leak",
    "C3.Qiskit.Run.C162_false_override",
    "C3.Qiskit.Run.C162_false_sticky"
   ],
   "note": "Propagators always belong to the current parameters; update gates change later circuits, win over run options, and parameters without a map make all later calls raise (negations proved)."
  },
  {
   "property": "C163",
   "status": "proved",
   "theorems": [
    "C3.Qiskit.Run.C163_rotations"
   ],
   "note": "The matrices of the Qiskit classes are in the trusted base."
  },
  {
   "property": "C164",
   "status": "partial",
   "theorems": [
    "C3.Qiskit.Run.C164_first_partial",
    "C3.Qiskit.Run.C164_false_cx"
   ],
   "note": "Holds for crxp, crzp and cz; cx is controlled by the second target (negation proved)."
  },
  {
   "property": "C165",
   "status": "proved",
   "theorems": [
    "C3.Optim.Lik.C165_is_binomial",
    "C3.Optim.Lik.C165_binom",
    "C3.Optim.Lik.C165_multinom",
    "C3.Optim.Lik.C165_two_outcomes"
   ],
   "note": ""
  },
  {
   "property": "C166",
   "status": "partial",
   "theorems": [
    "C3.Optim.Lik.C166_zero",
    "C3.Optim.Lik.C166_top_partial",
    "C3.Optim.Lik.C166_false_binom",
    "C3.Optim.Lik.C166_false_multinom",
    "C3.Optim.Lik.C166_values"
   ],
   "note": "The binomial one is zero at a match and largest likelihood holds for whole counts; between whole counts it can be negative, and the multinomial one is not zero at a match (negations proved)."
  },
  {
   "property": "C167",
   "status": "partial",
   "theorems": [
    "C3.Experiment.RunCfg.C167_steps_partial",
    "C3.Experiment.RunCfg.C167_initial_partial",
    "C3.Experiment.RunCfg.C167_debug",
    "C3.Experiment.RunCfg.C167_unknown",
    "C3.Experiment.RunCfg.C167_false_quick",
    "C3.Experiment.RunCfg.C167_false_adjust",
    "C3.Experiment.RunCfg.C167_false_initial",
    "C3.Experiment.RunCfg.C167_false_twice",
    "C3.Experiment.RunCfg.C167_entries"
   ],
   "note": "Holds for full experiment configurations with one initial point; quick setups, adjust_exp, lists of points and second runs raise (negations proved)."
  },
  {
   "property": "C168",
   "status": "partial",
   "theorems": [
    "C3.Experiment.Qasm.C168_phases_partial",
    "C3.Experiment.Qasm.C168_populations",
    "C3.Experiment.Qasm.C168_additive",
    "C3.Experiment.Qasm.C168_unknown",
    "C3.Experiment.Qasm.C168_false_higher",
    "C3.Experiment.Qasm.C168_false_open"
   ],
   "note": "Phases hold while all qubits are in their lowest two levels; with another qubit in a higher level the gate does nothing, and for open systems it raises (negations proved)."
  },
  {
   "property": "C169",
   "status": "partial",
   "theorems": [
    "C3.Experiment.Setup.C169_roundtrip_partial",
    "C3.Experiment.Setup.C169_parts",
    "C3.Experiment.Setup.C169_false_method",
    "C3.Experiment.Setup.C169_false_gates",
    "C3.Experiment.Setup.C169_false_qasm",
    "C3.Experiment.Setup.C169_false_twice",
    "C3.Experiment.Setup.C169_false_stale",
    "C3.Experiment.Setup.C169_defaults"
   ],
   "note": "Parts, settings and resolution survive; method, selected gates and format are not written, and reading removes the resolution from the dictionary (negations proved)."
  },
  {
   "property": "C170",
   "status": "partial",
   "theorems": [
    "C3.Experiment.Setup.C170_single",
    "C3.Experiment.Setup.C170_two_partial",
    "C3.Experiment.Setup.C170_files",
    "C3.Experiment.Setup.C170_false_shared",
    "C3.Experiment.Setup.C170_false_twice",
    "C3.Experiment.Setup.C170_false_absolute",
    "C3.Experiment.Setup.C170_absolute",
    "C3.Experiment.Setup.C170_root"
   ],
   "note": "Two qubits on one line leave only the second one driven; the sideband is removed from the dictionary; absolute file names without a base folder raise (negations proved)."
  },
  {
   "property": "C171",
   "status": "proved",
   "theorems": [
    "C3.Fidelity.C171_unitary",
    "C3.Fidelity.C171_average",
    "C3.Fidelity.C171_state",
    "C3.Fidelity.C171_lindblad",
    "C3.Fidelity.C171_mean",
    "C3.Fidelity.C171_seq",
    "C3.Fidelity.C171_ideal"
   ],
   "note": "The range of the single figures of merit is the subject of C61-C63."
  },
  {
   "property": "C172",
   "status": "partial",
   "theorems": [
    "C3.Quantity.Views.C172_array",
    "C3.Quantity.Views.C172_tolist",
    "C3.Quantity.Views.C172_tolist_shape",
    "C3.Quantity.Views.C172_agree_partial",
    "C3.Quantity.Views.C172_compare",
    "C3.Quantity.Views.C172_float",
    "C3.Quantity.Views.C172_getitem_partial",
    "C3.Quantity.Views.C172_iterate",
    "C3.Quantity.Views.C172_false_pi",
    "C3.Quantity.Views.C172_false_one",
    "C3.Quantity.Views.C172_false_len"
   ],
   "note": "All views agree for units without a factor and vectors of more than one entry. Lists and comparisons include the factor pi of the unit and the others do not; vectors with one entry are nested twice; the length of a matrix counts entries, its keys rows (negations proved)."
  },
  {
   "property": "C173",
   "status": "partial",
   "theorems": [
    "C3.Reports.C173_keys",
    "C3.Reports.C173_refused",
    "C3.Reports.C173_in_place",
    "C3.Reports.C173_units",
    "C3.Reports.C173_limits",
    "C3.Reports.C173_succeeds",
    "C3.Reports.C173_dict",
    "C3.Reports.C173_printed",
    "C3.Reports.C173_values",
    "C3.Reports.C173_printed_fails",
    "C3.Reports.C173_false_alias",
    "C3.Reports.C173_false_dict"
   ],
   "note": "The reports line up. The opt_map list of the caller is kept, so it can be changed without checks; two groups with the same leader share one entry of the dictionary (negations proved)."
  },
  {
   "property": "C174",
   "status": "partial",
   "theorems": [
    "C3.Hilbert.C174_dressed_partial",
    "C3.Hilbert.C174_uncoupled_partial",
    "C3.Hilbert.C174_false_stale"
   ],
   "note": "Holds in the dressed frame with real eigenvectors and dressed states that keep more than half of their weight; after set_dressed(False) the frequencies of the last dressed model are reported (negation proved)."
  },
  {
   "property": "C175",
   "status": "partial",
   "theorems": [
    "C3.Hilbert.C175_unordered_partial",
    "C3.Hilbert.C175_none",
    "C3.Hilbert.C175_aligned_partial",
    "C3.Hilbert.C175_false_permuted",
    "C3.Hilbert.C175_false_swap",
    "C3.Hilbert.C175_false_phase"
   ],
   "note": "Holds without ordering, and with ordering for bases close to the bare one with positive diagonal. A permuted basis is permuted back and phases are lost (negations proved)."
  },
  {
   "property": "C176",
   "status": "partial",
   "theorems": [
    "C3.Hilbert.C176_limited_partial",
    "C3.Hilbert.C176_false_unlimited",
    "C3.Hilbert.C176_false_lifted",
    "C3.Hilbert.C176_false_plural"
   ],
   "note": "Holds while a limit is set. Without one, or after it was lifted, it raises, and the plural method always raises (negations proved)."
  },
  {
   "property": "C177",
   "status": "partial",
   "theorems": [
    "C3.Optim.GoalFuncs.C177_call",
    "C3.Optim.GoalFuncs.C177_defaults",
    "C3.Optim.GoalFuncs.C177_usable_partial",
    "C3.Optim.GoalFuncs.C177_usable_ode_partial",
    "C3.Optim.GoalFuncs.C177_arguments",
    "C3.Optim.GoalFuncs.C177_found",
    "C3.Optim.GoalFuncs.C177_resolved",
    "C3.Optim.GoalFuncs.C177_open_partial",
    "C3.Optim.GoalFuncs.C177_false_registered",
    "C3.Optim.GoalFuncs.C177_false_open"
   ],
   "note": "Exactly six of the 21 registered functions can be evaluated with propagators and one with an ODE solver, whatever arguments are added; open systems are left with two names (negations proved)."
  },
  {
   "property": "C178",
   "status": "partial",
   "theorems": [
    "C3.Optim.GoalFuncs.C178_resolved_partial",
    "C3.Optim.GoalFuncs.C178_goal",
    "C3.Optim.GoalFuncs.C178_status",
    "C3.Optim.GoalFuncs.C178_false_callbacks",
    "C3.Optim.GoalFuncs.C178_false_functions"
   ],
   "note": "The names are resolved as documented, but the functions found are never evaluated (negation proved)."
  },
  {
   "property": "C179",
   "status": "partial",
   "theorems": [
    "C3.Optim.GoalFuncs.C179_numbers_partial",
    "C3.Optim.GoalFuncs.C179_signatures",
    "C3.Optim.GoalFuncs.C179_false_numbers",
    "C3.Optim.GoalFuncs.C179_false_consecutive",
    "C3.Optim.GoalFuncs.C179_false_n_eval"
   ],
   "note": "Holds for calibration (from 1) and model learning (from 0). In OptimalControl the counter advances only when tf.function traces a new signature, in the robust version never (negations proved)."
  },
  {
   "property": "C180",
   "status": "partial",
   "theorems": [
    "C3.Optim.Loggers.C180_content_partial",
    "C3.Optim.Loggers.C180_run_partial",
    "C3.Optim.Loggers.C180_false_time",
    "C3.Optim.Loggers.C180_false_vector",
    "C3.Optim.Loggers.C180_false_nan",
    "C3.Optim.Loggers.C180_false_steps"
   ],
   "note": "Holds for scalar parameters, numbers as goals and optimizers that write a time. OptimalControl writes none and the first evaluation raises; vectors raise; robust runs are written at step 0 (negations proved)."
  },
  {
   "property": "C181",
   "status": "partial",
   "theorems": [
    "C3.Optim.Loggers.C181_table_partial",
    "C3.Optim.Loggers.C181_false_vector",
    "C3.Optim.Loggers.C181_false_watch"
   ],
   "note": "Holds for the first display of scalar parameters; vectors raise and watching shows goal -1 (negations proved)."
  },
  {
   "property": "C182",
   "status": "partial",
   "theorems": [
    "C3.Optim.Scans.C182_scan_partial",
    "C3.Optim.Scans.C182_false_no_probes",
    "C3.Optim.Scans.C182_false_numbers",
    "C3.Optim.Scans.C182_false_several",
    "C3.Optim.Scans.C182_false_again"
   ],
   "note": "Holds for one parameter and probes given as strings, at least one of them. Without probes, with numbers, with several parameters and in a second run it raises (negations proved)."
  },
  {
   "property": "C183",
   "status": "partial",
   "theorems": [
    "C3.Optim.Scans.C183_evaluations",
    "C3.Optim.Scans.C183_count",
    "C3.Optim.Scans.C183_refused",
    "C3.Optim.Scans.C183_heavy_ball",
    "C3.Optim.Scans.C183_stationary",
    "C3.Optim.Scans.C183_converges",
    "C3.Optim.Scans.C183_false_best"
   ],
   "note": "All but the last part; the last point is returned, not the best (negation proved)."
  },
  {
   "property": "C184",
   "status": "partial",
   "theorems": [
    "C3.Optim.Scans.C184_options_partial",
    "C3.Optim.Scans.C184_custom",
    "C3.Optim.Scans.C184_false_stale",
    "C3.Optim.Scans.C184_false_lost"
   ],
   "note": "Holds for the first run. The options are changed in place, so that later changes of shared options and custom options of the first stage are lost (negations proved)."
  },
  {
   "property": "C185",
   "status": "partial",
   "theorems": [
    "C3.Optim.Scans.C185_start_partial",
    "C3.Optim.Scans.C185_names",
    "C3.Optim.Scans.C185_arguments",
    "C3.Optim.Scans.C185_maxiter",
    "C3.Optim.Scans.C185_unknown",
    "C3.Optim.Scans.C185_false_all",
    "C3.Optim.Scans.C185_false_maxfun"
   ],
   "note": "Holds for ten of eleven registered algorithms; oneplusone has another signature, three are not registered, lbfgs_grad_free ignores maxfun (negations proved)."
  },
  {
   "property": "C186",
   "status": "partial",
   "theorems": [
    "C3.Optim.LogDirs.C186_name",
    "C3.Optim.LogDirs.C186_cleanup_partial",
    "C3.Optim.LogDirs.C186_empty",
    "C3.Optim.LogDirs.C186_false_recent",
    "C3.Optim.LogDirs.C186_false_loggers",
    "C3.Optim.LogDirs.C186_false_run"
   ],
   "note": "The directory name is right and the old directory is removed if empty; the link of the user is kept, a file recent in the working directory is deleted, loggers keep the old directory and a default run ignores the new one (negations proved)."
  },
  {
   "property": "C187",
   "status": "partial",
   "theorems": [
    "C3.Optim.LogDirs.C187_setup_partial",
    "C3.Optim.LogDirs.C187_false_recent"
   ],
   "note": "Holds for run names other than recent and no directory of that name (negation proved)."
  },
  {
   "property": "C188",
   "status": "partial",
   "theorems": [
    "C3.Optim.LogDirs.C188_stored_partial",
    "C3.Optim.LogDirs.C188_switch",
    "C3.Optim.LogDirs.C188_false_traced",
    "C3.Optim.LogDirs.C188_false_again",
    "C3.Optim.LogDirs.C188_false_names"
   ],
   "note": "Holds for goal functions run as ordinary code; OptimalControl traces its goal function and storing raises, as does a second run into the same directory (negations proved)."
  },
  {
   "property": "C189",
   "status": "partial",
   "theorems": [
    "C3.Optim.Calib.C189_dataset",
    "C3.Optim.Calib.C189_learning",
    "C3.Optim.Calib.C189_false_exception"
   ],
   "note": "Holds for runs that end regularly or by interrupt. If the measurement raises, the file is left as a stream of pickles that read_data cannot use (negation proved)."
  },
  {
   "property": "C190",
   "status": "partial",
   "theorems": [
    "C3.Optim.Calib.C190_best_partial",
    "C3.Optim.Calib.C190_log",
    "C3.Optim.Calib.C190_false_second",
    "C3.Optim.Calib.C190_false_gradient"
   ],
   "note": "Holds for scalar parameters and one run per object, also for proposals out of range. A second run without improvement raises; gradient algorithms raise after the first measurement (negations proved)."
  },
  {
   "property": "C191",
   "status": "partial",
   "theorems": [
    "C3.Devices.Noise.C191_record",
    "C3.Devices.Noise.C191_chain_partial",
    "C3.Devices.Noise.C191_silent",
    "C3.Devices.Noise.C191_dc",
    "C3.Devices.Noise.C191_false_two",
    "C3.Devices.Noise.C191_false_offset",
    "C3.Devices.Noise.C191_false_converted",
    "C3.Devices.Noise.C191_false_lo_noise",
    "C3.Devices.Noise.C191_key"
   ],
   "note": "Proved for one noise device at the end of a chain. A second noise device forgets the record of the first, DC_Offset shifts it, VoltsToHertz drops it, and LONoise misspells its method so that no chain with it runs (negations proved)."
  },
  {
   "property": "C192",
   "status": "partial",
   "theorems": [
    "C3.Devices.Noise.C192_false_documented",
    "C3.Devices.Noise.C192_linear_partial",
    "C3.Devices.Noise.C192_false_range",
    "C3.Devices.Noise.C192_false_bias",
    "C3.Devices.Noise.C192_required"
   ],
   "note": "With its documented parameters the device raises KeyError; with an additional `phi` the result is linear in the signal but is not a frequency of the SQUID and does not depend on bias and flux quantum (negations proved)."
  },
  {
   "property": "C193",
   "status": "partial",
   "theorems": [
    "C3.Devices.Noise.C193_convolution",
    "C3.Devices.Noise.C193_no_overshoot",
    "C3.Devices.Noise.C193_unit_gain",
    "C3.Devices.Noise.C193_time_partial",
    "C3.Devices.Noise.C193_false_resolution",
    "C3.Devices.Noise.C193_too_short",
    "C3.Devices.Noise.C193_false_same"
   ],
   "note": "Causality, unit gain and no overshoot hold. The number of samples agrees with the times only for inputs at the resolution of the filter, and the output differs from the filter that replaces it (negations proved)."
  },
  {
   "property": "C194",
   "status": "partial",
   "theorems": [
    "C3.Experiment.Lookup.C194_all",
    "C3.Experiment.Lookup.C194_selection",
    "C3.Experiment.Lookup.C194_lookup_partial",
    "C3.Experiment.Lookup.C194_false_params",
    "C3.Experiment.Lookup.C194_false_vz",
    "C3.Experiment.Lookup.C194_false_untargeted",
    "C3.Experiment.Lookup.C194_false_tuple",
    "C3.Experiment.Lookup.C194_false_collision",
    "C3.Experiment.Lookup.C194_false_as_openqasm",
    "C3.Experiment.Lookup.C194_false_as_openqasm_named",
    "C3.Experiment.Lookup.C194_no_qubits"
   ],
   "note": "Proved for names without brackets and lists of qubits. Parameters are ignored except for VZ, instructions called VZ or without targets cannot be addressed, tuples are not found, names with brackets collide, and as_openqasm never gives an operation that evaluates (negations proved)."
  },
  {
   "property": "C195",
   "status": "partial",
   "theorems": [
    "C3.Experiment.Lookup.C195_gates",
    "C3.Experiment.Lookup.C195_defined",
    "C3.Experiment.Lookup.C195_replace_partial",
    "C3.Experiment.Lookup.C195_false_levels"
   ],
   "note": "The contents are right for every register. Evaluating with them works on registers of two-level systems; with three or more levels the sizes differ (negation proved)."
  },
  {
   "property": "C196",
   "status": "partial",
   "theorems": [
    "C3.Chip.Switch.C196_update",
    "C3.Chip.Switch.C196_all_partial",
    "C3.Chip.Switch.C196_closed",
    "C3.Chip.Switch.C196_repair",
    "C3.Chip.Switch.C196_false_missing",
    "C3.Chip.Switch.C196_false_stale",
    "C3.Chip.Switch.C196_false_resonator"
   ],
   "note": "Holds if all components have decay times, or in closed dynamics. A qubit without decay times raises but leaves the setting and then outdated dressed Hamiltonians; a resonator has no collapse operator (negations proved)."
  },
  {
   "property": "C197",
   "status": "partial",
   "theorems": [
    "C3.Propagation.Times.C197_controlled_partial",
    "C3.Propagation.Times.C197_step_partial",
    "C3.Propagation.Times.C197_false_grids",
    "C3.Propagation.Times.C197_uncontrolled_partial",
    "C3.Propagation.Times.C197_false_shift",
    "C3.Propagation.Times.C197_tolerance",
    "C3.Propagation.Times.C197_false_tolerance",
    "C3.Propagation.Times.C197_false_short"
   ],
   "note": "Holds with control Hamiltonians and channels on one grid. With control Hamiltonians times are never compared; without, the first time is cut off but not its Hamiltonian, the comparison takes a squared time for a time, and short gates raise (negations proved)."
  },
  {
   "property": "C198",
   "status": "partial",
   "theorems": [
    "C3.Utils.Printing.C198_order",
    "C3.Utils.Printing.C198_pi",
    "C3.Utils.Printing.C198_prefix_partial",
    "C3.Utils.Printing.C198_plain",
    "C3.Utils.Printing.C198_false_sign",
    "C3.Utils.Printing.C198_false_small"
   ],
   "note": "Holds for zero, numbers inside the table of prefixes, units of pi and quantities without unit. Beyond the table negative numbers are printed as positive and small ones as zero (negations proved)."
  },
  {
   "property": "C199",
   "status": "proved",
   "theorems": [
    "C3.Experiment.EndToEnd.C199_unitary",
    "C3.Experiment.EndToEnd.C199_channel",
    "C3.Experiment.EndToEnd.C199_closed",
    "C3.Experiment.EndToEnd.C199_open",
    "C3.Experiment.EndToEnd.C199_readout",
    "C3.Experiment.EndToEnd.C199_computed",
    "C3.Experiment.EndToEnd.C199_no_samples"
   ],
   "note": "Composes C22, C25, C35, C37, C65, C67 and C68. Without limit on excitations (C138) and dephasing channel (C125)."
  },
  {
   "property": "C200",
   "status": "partial",
   "theorems": [
    "C3.Optim.Evolution.C200_best",
    "C3.Optim.Evolution.C200_none",
    "C3.Optim.Evolution.C200_cmaes_partial",
    "C3.Optim.Evolution.C200_gcmaes",
    "C3.Optim.Evolution.C200_evaluated",
    "C3.Optim.Evolution.C200_false_noise",
    "C3.Optim.Evolution.C200_false_init",
    "C3.Optim.Evolution.C200_options"
   ],
   "note": "With noise the returned point may be worse than the evaluated initial point, without init_point it may be worse than the initial point."
  },
  {
   "property": "C201",
   "status": "partial",
   "theorems": [
    "C3.Chip.Construct.C201_named_partial",
    "C3.Chip.Construct.C201_gamma",
    "C3.Chip.Construct.C201_rest_partial",
    "C3.Chip.Construct.C201_writable_partial",
    "C3.Chip.Construct.C201_dictionary",
    "C3.Chip.Construct.C201_own",
    "C3.Chip.Construct.C201_accepts",
    "C3.Chip.Construct.C201_number",
    "C3.Chip.Construct.C201_false_entry",
    "C3.Chip.Construct.C201_false_ignored",
    "C3.Chip.Construct.C201_false_fluxonium",
    "C3.Chip.Construct.C201_false_resonator",
    "C3.Chip.Construct.C201_false_snail",
    "C3.Chip.Construct.C201_false_ports",
    "C3.Chip.Construct.C201_false_shared"
   ],
   "note": "Holds for named arguments with a meaning and for entries of configuration files. Ignored arguments, fluxoniums without dictionary, SNAILs from a dictionary, ports of flux qubits and shared quantities: negations proved."
  },
  {
   "property": "C202",
   "status": "proved",
   "theorems": [
    "C3.Propagation.Converge.C202_closed",
    "C3.Propagation.Converge.C202_open",
    "C3.Propagation.Converge.C202_centred_needed",
    "C3.Propagation.Exists.C202_solution",
    "C3.Propagation.Exists.C202_solution_open",
    "C3.Propagation.Exists.C202_converges",
    "C3.Propagation.Exists.C202_converges_open"
   ],
   "note": "Signals are functions of time sampled by create_ts; devices that filter or resample the signal are not part of the statement. Existence and uniqueness of the solution are proved."
  },
  {
   "property": "C203",
   "status": "partial",
   "theorems": [
    "C3.Propagation.HsOfT.C203_samples",
    "C3.Propagation.HsOfT.C203_ends",
    "C3.Propagation.HsOfT.C203_steps",
    "C3.Propagation.HsOfT.C203_false_label"
   ],
   "note": "Hamiltonians, step size and times are proved. The states belong to times one step later than those returned with them: C203_false_label."
  },
  {
   "property": "C204",
   "status": "partial",
   "theorems": [
    "C3.Propagation.SolverConverge.C204_schrodinger_partial",
    "C3.Propagation.SolverConverge.C204_lindblad_partial",
    "C3.Propagation.SolverConverge.C204_tsit5",
    "C3.Propagation.SolverConverge.C204_late",
    "C3.Propagation.SolverConverge.C204_late_open",
    "C3.Propagation.SolverConverge.C204_false_second",
    "C3.Propagation.Exists.C204_solution",
    "C3.Propagation.Exists.C204_converges_partial",
    "C3.Fidelity.Sensitive.C204_tsit5_bound"
   ],
   "note": "First order is proved. Second order is false for the code: the slice centres are used as the starts of the steps, so that the solvers follow the equation from half a slice after the start to half a slice after the end, to second order. The weights of tsit5 add up to one only up to 1.5e-16: it is proved to converge to the equation with energies and rates multiplied by their sum, and to stay within 1.5e-16 times the norm of the Hamiltonian times the duration of the Schrödinger equation."
  },
  {
   "property": "C205",
   "status": "proved",
   "theorems": [
    "C3.Propagation.SolverConverge.C205_schrodinger",
    "C3.Propagation.SolverConverge.C205_lindblad",
    "C3.Propagation.Order.words_order",
    "C3.Propagation.Order.series_order",
    "C3.Propagation.Exists.C205_converges"
   ],
   "note": "tsit5 is left out because its decimal coefficients meet the conditions of fourth order only approximately; C204 has its first order."
  },
  {
   "property": "C206",
   "status": "partial",
   "theorems": [
    "C3.Fidelity.Haar.C206_mean_partial",
    "C3.Fidelity.Haar.C206_exact",
    "C3.Fidelity.Haar.C206_exists",
    "C3.Fidelity.Haar.C206_false_leakage"
   ],
   "note": "Proved without leakage. With leakage the code is off by the mean leakage over 2^n+1 (C206_exact): it reports too small an infidelity, C206_false_leakage."
  },
  {
   "property": "C207",
   "status": "partial",
   "theorems": [
    "C3.Fidelity.Chi.C207_basis",
    "C3.Fidelity.Chi.C207_orthogonal",
    "C3.Fidelity.Chi.C207_entries",
    "C3.Fidelity.Chi.C207_process_partial",
    "C3.Fidelity.Chi.C207_positive",
    "C3.Fidelity.Chi.C207_trace",
    "C3.Fidelity.Chi.C207_pauli",
    "C3.Fidelity.Chi.C207_false_order"
   ],
   "note": "The matrix is the transpose of the one in the claim, see C207_process_partial and C207_false_order; all else is proved."
  },
  {
   "property": "C208",
   "status": "partial",
   "theorems": [
    "C3.Fidelity.States.C208_expand",
    "C3.Fidelity.States.C208_basis",
    "C3.Fidelity.States.C208_states",
    "C3.Fidelity.States.C208_axes_partial",
    "C3.Fidelity.States.C208_unbiased",
    "C3.Fidelity.States.C208_design",
    "C3.Fidelity.States.C208_false_z"
   ],
   "note": "The signs on the z-axis are swapped: zp is the eigenstate of Z with eigenvalue minus one, C208_false_z."
  },
  {
   "property": "C209",
   "status": "proved",
   "theorems": [
    "C3.Propagation.Average.C209_average",
    "C3.Propagation.Average.C209_rotations",
    "C3.Experiment.Resonant.C209_gate",
    "C3.Experiment.Resonant.C209_axis",
    "C3.Experiment.Resonant.C209_table"
   ],
   "note": "The amplitude is a function of time with Lipschitz derivative, sampled by create_ts (C141 relates it to the devices; filters and the mask at the end of a pulse are left out). Drives act on the quadrature of their own qubit; no couplings, no dressing."
  },
  {
   "property": "C210",
   "status": "partial",
   "theorems": [
    "C3.Qiskit.Provider.C210_made",
    "C3.Qiskit.Provider.C210_all",
    "C3.Qiskit.Provider.C210_named",
    "C3.Qiskit.Provider.C210_false_filters",
    "C3.Qiskit.Provider.C210_false_witness",
    "C3.Qiskit.Provider.C210_options",
    "C3.Qiskit.Provider.C210_job"
   ],
   "note": "Filters are ignored (C210_false_filters): a filter that refuses every backend still lists all. Missing for a full proof: a code change that applies filters. Names of methods of Options (get, update_options, to_dict), which also pass the check of names, are left out."
  },
  {
   "property": "C211",
   "status": "partial",
   "theorems": [
    "C3.Propagation.TfKron.C211_matrices",
    "C3.Propagation.TfKron.C211_stacks",
    "C3.Propagation.TfKron.C211_stack_matrix",
    "C3.Propagation.TfKron.C211_matrix_stack",
    "C3.Propagation.TfKron.C211_lengths",
    "C3.Propagation.TfKron.C211_false_two_batches",
    "C3.Propagation.TfKron.C211_kronecker",
    "C3.Propagation.TfKron.C211_super"
   ],
   "note": "With two or more batch dimensions longer than 1 the product raises although the shapes fit (C211_false_two_batches): only the first batch dimension is kept. Missing for a full proof: a code change that keeps all of them."
  },
  {
   "property": "C212",
   "status": "partial",
   "theorems": [
    "C3.Fidelity.Decay.C212_decay",
    "C3.Fidelity.Decay.C212_mean_orbit",
    "C3.Fidelity.Decay.C212_closed",
    "C3.Fidelity.Decay.C212_depolarizing",
    "C3.Fidelity.Decay.C212_false_epg",
    "C3.Fidelity.Decay.C212_epg_slope"
   ],
   "note": "The last sentence is false: epg takes four gates per Clifford although the decompositions have 9/4 on average; with depolarizing gates it is strictly smaller than the infidelity of a gate (C212_false_epg), 9/16 of it to first order (C212_epg_slope). Missing for a full proof: a code change to the mean number of gates (the TODO of the code). Qubits without further levels; that RB itself raises with the usual names of gates is C105. The curve fit is not modelled."
  },
  {
   "property": "C213",
   "status": "proved",
   "theorems": [
    "C3.Fidelity.Sensitive.C213_gates",
    "C3.Fidelity.Sensitive.C213_signals",
    "C3.Fidelity.Sensitive.C213_drift",
    "C3.Fidelity.Sensitive.C213_infid",
    "C3.Fidelity.Sensitive.C213_populations"
   ],
   "note": "Closed systems; exact arithmetic. The bound on infidelities is that of unitary_infid."
  },
  {
   "property": "C214",
   "status": "partial",
   "theorems": [
    "C3.ParamMap.Refuse.C214_reported_partial",
    "C3.ParamMap.Refuse.C214_always_partial",
    "C3.ParamMap.Refuse.C214_unknown",
    "C3.ParamMap.Refuse.C214_states",
    "C3.ParamMap.Refuse.C214_false_units",
    "C3.ParamMap.Refuse.C214_false_single",
    "C3.ParamMap.Refuse.C214_false_unknown",
    "C3.ParamMap.Refuse.C214_false_limits"
   ],
   "note": "Parameter and value are right and the limits are those of the parameter if its unit has no factor. With pi in the unit the stated limits are multiplied by it, so that the refused value can lie within them; for arrays of one entry the message cannot be formatted and a TypeError is raised instead; unknown parameters raise a KeyError; the message about different limits is not filled in (negations proved)."
  },
  {
   "property": "C215",
   "status": "partial",
   "theorems": [
    "C3.Experiment.FrameFreq.C215_frequency",
    "C3.Experiment.FrameFreq.C215_rotation",
    "C3.Experiment.FrameFreq.C215_signal_partial",
    "C3.Experiment.FrameFreq.C215_quick_setup",
    "C3.Experiment.FrameFreq.C215_wait",
    "C3.Experiment.FrameFreq.C215_false_zero",
    "C3.Experiment.FrameFreq.C215_false_idle",
    "C3.Experiment.FrameFreq.C215_false_two",
    "C3.Experiment.FrameFreq.C215_false_name",
    "C3.Experiment.FrameFreq.C215_missing"
   ],
   "note": "The frequency is that of the carrier plus the offset of the last pulse with an amplitude other than zero, which is the frequency of the signal if all such pulses have the same offset. With different offsets only the last pulse counts; with a sideband an amplitude of zero switches to the frequency of the carrier, so that waiting rotates the qubit; a carrier with another name raises (negations proved)."
  },
  {
   "property": "C216",
   "status": "partial",
   "theorems": [
    "C3.Config.Registry.C216_names",
    "C3.Config.Registry.C216_calls",
    "C3.Config.Registry.C216_reread_partial",
    "C3.Config.Registry.C216_libraries",
    "C3.Config.Registry.C216_catalogue",
    "C3.Config.Registry.C216_false_deprecated",
    "C3.Config.Registry.C216_false_gaussian",
    "C3.Config.Registry.C216_false_user",
    "C3.Config.Registry.C216_false_linear"
   ],
   "note": "Holds for everything looked up by name and for functions of the libraries that are not deprecated. gaussian and drag taken from the module are written as deprecated_func and cannot be read; functions of the user are replaced by a library function of the same name or cannot be read; FluxTuningLinear is not registered (negations proved)."
  },
  {
   "property": "C217",
   "status": "partial",
   "theorems": [
    "C3.Utils.Small.C217_abs",
    "C3.Utils.Small.C217_ave",
    "C3.Utils.Small.C217_diff",
    "C3.Utils.Small.C217_diff_sum",
    "C3.Utils.Small.C217_ask",
    "C3.Utils.Small.C217_jsonify",
    "C3.Utils.Small.C217_keep_partial",
    "C3.Utils.Small.C217_false_keep"
   ],
   "note": "jsonify_list does not pass transform_arrays on, so that arrays inside of lists and dictionaries are converted even if it is False (negation proved)."
  },
  {
   "property": "C218",
   "status": "proved",
   "theorems": [
    "C3.Experiment.ResonantInfid.C218_infid",
    "C3.Experiment.ResonantInfid.C218_table"
   ],
   "note": "Second order in the error: the dimension times the square of the entrywise error of C209."
  },
  {
   "property": "C219",
   "status": "proved",
   "theorems": [
    "C3.Experiment.FromInstruction.C219_gate",
    "C3.Experiment.FromInstruction.C219_table",
    "C3.Experiment.FromInstruction.lineSignal_eq",
    "C3.Experiment.FromInstruction.instrPulse_eq",
    "C3.Experiment.FromInstruction.line_error"
   ],
   "note": "No response function between converter and mixer; the instruction starts at time zero; the simulation resolution is a multiple of that of the waveform generator."
  },
  {
   "property": "C220",
   "status": "partial",
   "theorems": [
    "C3.Quantity.C220_in_place_partial",
    "C3.Quantity.C220_undo_partial",
    "C3.Quantity.C220_false"
   ],
   "note": "Holds for units without a factor. With a factor get_value and set_value differ by it: adding zero raises or multiplies the value (negation proved)."
  },
  {
   "property": "C221",
   "status": "partial",
   "theorems": [
    "C3.Envelopes.C221_trapezoid_partial",
    "C3.Envelopes.C221_false_trapezoid",
    "C3.Envelopes.C221_derivatives",
    "C3.Envelopes.C221_gaussian",
    "C3.Envelopes.C221_cosine_flattop",
    "C3.Envelopes.C221_cosine_flattop_area",
    "C3.Envelopes.C221_fourier",
    "C3.Envelopes.C221_pwc_shape",
    "C3.Envelopes.C221_slepian"
   ],
   "note": "Partial for trapezoid: with slopes that do not fit into the pulse the area is another one (negation proved)."
  },
  {
   "property": "C222",
   "status": "proved",
   "theorems": [
    "C3.Experiment.EnvelopeGates.C222_rect",
    "C3.Experiment.EnvelopeGates.C222_cosine",
    "C3.Experiment.EnvelopeGates.C222_gaussian"
   ],
   "note": "As C219: no response function, start at time zero."
  },
  {
   "property": "C223",
   "status": "proved",
   "theorems": [
    "C3.Experiment.Circuits.C223_populations"
   ],
   "note": "As C219: no response function, start at time zero. All instructions use the same resolutions."
  },
  {
   "property": "C224",
   "status": "partial",
   "theorems": [
    "C3.Optim.Constructors.C224_learning",
    "C3.Optim.Constructors.C224_attributes",
    "C3.Optim.Constructors.C224_algorithm",
    "C3.Optim.Constructors.C224_sensitivity",
    "C3.Optim.Constructors.C224_sweep_partial",
    "C3.Optim.Constructors.C224_false_shared"
   ],
   "note": "Partial for the last sentence: optimizers constructed without options share the default dictionary, so that a sweep sets the bounds of another optimizer (negation proved)."
  },
  {
   "property": "C225",
   "status": "proved",
   "theorems": [
    "C3.Experiment.WeakNoise.C225_gates",
    "C3.Experiment.WeakNoise.C225_weak",
    "C3.Experiment.WeakNoise.C225_none",
    "C3.Experiment.WeakNoise.C225_populations"
   ],
   "note": "Bounds for the piecewise constant method with exact exponentials."
  },
  {
   "property": "C226",
   "status": "partial",
   "theorems": [
    "C3.Experiment.Waiting.C226_relaxation",
    "C3.Experiment.Waiting.C226_qubit_partial",
    "C3.Experiment.Waiting.C226_false_transmon",
    "C3.Experiment.Waiting.C226_dephasing",
    "C3.Experiment.Waiting.C226_kept",
    "C3.Experiment.Waiting.C226_uncoupled"
   ],
   "note": "Holds for qubits and for dephasing; a transmon relaxes with twice its T1, since its collapse operator carries the factor 0.5."
  },
  {
   "property": "C227",
   "status": "proved",
   "theorems": [
    "C3.Experiment.NoisyCircuits.C227_circuits",
    "C3.Experiment.NoisyCircuits.C227_strength",
    "C3.Experiment.NoisyCircuits.C227_times",
    "C3.Experiment.NoisyCircuits.C227_qubits"
   ],
   "note": "Puts C223 and C225 together; the constants C of the gate errors depend on the instructions only."
  },
  {
   "property": "C228",
   "status": "partial",
   "theorems": [
    "C3.Fidelity.Leakage.C228_channel",
    "C3.Fidelity.Leakage.C228_points",
    "C3.Fidelity.Leakage.C228_leakage",
    "C3.Fidelity.Leakage.C228_rates",
    "C3.Fidelity.Leakage.C228_unique",
    "C3.Fidelity.Leakage.C228_survival_partial",
    "C3.Fidelity.Leakage.C228_false_survival"
   ],
   "note": "The last sentence is false of the code: RB_surv uses B_leak of the computational population, but the ground state has only half of it (C228_survival_partial), so for a > 0 no parameters make RB_surv the expected survival at all lengths (C228_false_survival)."
  },
  {
   "property": "C229",
   "status": "proved",
   "theorems": [
    "C3.Experiment.GoalCircuits.C229_gate",
    "C3.Experiment.GoalCircuits.C229_leakage",
    "C3.Experiment.GoalCircuits.C229_circuits",
    "C3.Experiment.GoalCircuits.C229_set",
    "C3.Experiment.GoalCircuits.C229_average",
    "C3.Experiment.GoalCircuits.C229_named"
   ],
   "note": "C229_named assumes nothing of the ideal gates: they are those of the library on any targets. The other theorems allow a selection of qubits and any unitary ideal gate."
  },
  {
   "property": "C230",
   "status": "partial",
   "theorems": [
    "C3.Qiskit.Counts.C230_counts_partial",
    "C3.Qiskit.Counts.C230_false_order",
    "C3.Qiskit.Counts.C230_false_levels"
   ],
   "note": "The bound holds with qubit 0 as the most significant digit in the number system of the levels. The documented flip to Qiskit's order does not happen (C230_false_order: x on qubit 0 is reported as x on qubit 1) and with three levels the hex labels are not bit strings (C230_false_levels: x on qubit 0 is reported as both qubits excited). Circuits with VZ gates or parameter updates are left to C168 and C162."
  },
  {
   "property": "C231",
   "status": "partial",
   "theorems": [
    "C3.Devices.Amplitude.C231_average_partial",
    "C3.Devices.Amplitude.C231_total",
    "C3.Devices.Amplitude.C231_lone",
    "C3.Devices.Amplitude.C231_bound",
    "C3.Devices.Amplitude.C231_false_stale",
    "C3.Devices.Amplitude.C231_false_log"
   ],
   "note": "The reported numbers are those of the waveform last played on the line, by whatever instruction (C231_false_stale); log_shapes raises as soon as anything was played (C231_false_log)."
  },
  {
   "property": "C232",
   "status": "proved",
   "theorems": [
    "C3.Propagation.Kraus.C232_slice",
    "C3.Propagation.Kraus.C232_gate",
    "C3.Propagation.Kraus.C232_unitary",
    "C3.Propagation.Kraus.C232_product",
    "C3.Propagation.Kraus.C232_own",
    "C3.Propagation.Kraus.C232_entangled"
   ],
   "note": ""
  },
  {
   "property": "C233",
   "status": "proved",
   "theorems": [
    "C3.Experiment.OpenGoal.C233_leakage",
    "C3.Experiment.OpenGoal.C233_gate",
    "C3.Experiment.OpenGoal.C233_circuits",
    "C3.Experiment.OpenGoal.C233_set",
    "C3.Experiment.OpenGoal.C233_named"
   ],
   "note": ""
  },
  {
   "property": "C234",
   "status": "partial",
   "theorems": [
    "C3.Experiment.Smooth.C234_gate",
    "C3.Experiment.Smooth.C234_open",
    "C3.Experiment.Smooth.C234_infid",
    "C3.Experiment.Smooth.C234_lind",
    "C3.Experiment.Smooth.C234_set",
    "C3.Experiment.Smooth.C234_lind_set",
    "C3.Experiment.Smooth.C234_goal",
    "C3.Experiment.Smooth.C234_pulse",
    "C3.Experiment.Smooth.C234_descent",
    "C3.Experiment.Smooth.C234_kept",
    "C3.Experiment.Smooth.C234_state_partial",
    "C3.Experiment.Smooth.C234_false_state"
   ],
   "note": "Violated by state_transfer_infid: it has a corner wherever the reached state is orthogonal to the wanted one (C234_false_state); it is differentiable everywhere else (C234_state_partial). Proved for the other goal functions."
  },
  {
   "property": "C235",
   "status": "partial",
   "theorems": [
    "C3.Experiment.Optimized.C235_stored",
    "C3.Experiment.Optimized.C235_gates_partial",
    "C3.Experiment.Optimized.C235_last",
    "C3.Experiment.Optimized.C235_circuits_partial",
    "C3.Experiment.Optimized.C235_open_partial",
    "C3.Experiment.Optimized.C235_false_stale"
   ],
   "note": "Violated: the best point is loaded into the parameter map but the experiment keeps the propagators of the last evaluation (C235_stored, C235_false_stale: circuits end in the wrong state with certainty although the best goal is 0). Proved once compute_propagators is called again, and without it when the last point is the best (C235_last)."
  },
  {
   "property": "C236",
   "status": "partial",
   "theorems": [
    "C3.Experiment.Decays.C236_relaxation",
    "C3.Experiment.Decays.C236_t1_partial",
    "C3.Experiment.Decays.C236_false_transmon",
    "C3.Experiment.Decays.C236_ramsey_partial",
    "C3.Experiment.Decays.C236_echo_partial",
    "C3.Experiment.Decays.C236_false_both",
    "C3.Experiment.Decays.C236_resonance",
    "C3.Experiment.Decays.C236_false_name",
    "C3.Experiment.Decays.C236_setup"
   ],
   "note": "Holds for qubits with one of the two times. A transmon shows twice its T1. With both times the collapse operators are added to one operator and the Ramsey curve is another one (C236_false_both). T1_sequence asks for a gate Id, the other two for id, so one wait gate does not serve all three."
  },
  {
   "property": "C237",
   "status": "proved",
   "theorems": [
    "C3.Experiment.Exchange.C237_populations",
    "C3.Experiment.Exchange.C237_complete",
    "C3.Experiment.Exchange.C237_detuned",
    "C3.Experiment.Exchange.C237_only",
    "C3.Experiment.Exchange.C237_iswap",
    "C3.Experiment.Exchange.C237_setup"
   ],
   "note": "Two levels per qubit, no transformation to the dressed basis."
  },
  {
   "property": "C238",
   "status": "proved",
   "theorems": [
    "C3.Experiment.Idle.C238_level",
    "C3.Experiment.Idle.C238_kept",
    "C3.Experiment.Idle.C238_idle",
    "C3.Experiment.Idle.C238_single",
    "C3.Experiment.Idle.C238_pair",
    "C3.Experiment.Idle.C238_unseen",
    "C3.Experiment.Idle.C238_setup"
   ],
   "note": "Closed systems; real eigenvectors, each with more than half of its weight on one bare state; the diagonalization itself is trusted."
  },
  {
   "property": "C239",
   "status": "partial",
   "theorems": [
    "C3.Experiment.Warm.C239_law",
    "C3.Experiment.Warm.C239_limit",
    "C3.Experiment.Warm.C239_sequence",
    "C3.Experiment.Warm.C239_kept_partial",
    "C3.Experiment.Warm.C239_false_thermal",
    "C3.Experiment.Warm.C239_false_time",
    "C3.Experiment.Warm.C239_setup"
   ],
   "note": "The prepared thermal state is not stationary (C239_false_thermal) and T1 is not the observed decay time (C239_false_time). One two-level qubit, no T2*."
  },
  {
   "property": "C240",
   "status": "partial",
   "theorems": [
    "C3.Fidelity.Decay.C240_value",
    "C3.Fidelity.Decay.C240_length",
    "C3.Fidelity.Decay.C240_single",
    "C3.Fidelity.Decay.C240_clifford",
    "C3.Fidelity.Decay.C240_mean",
    "C3.Fidelity.Decay.C240_decay",
    "C3.Fidelity.Decay.C240_false_epg"
   ],
   "note": "The error per gate of the code is 9/16 of the mean infidelity of the gates (C240_false_epg); with cliffors_per_gate it would be right to first order (C240_decay). One qubit."
  },
  {
   "property": "C241",
   "status": "partial",
   "theorems": [
    "C3.Propagation.Trotter.C241_false_limit",
    "C3.Propagation.Trotter.C241_false_witness",
    "C3.Propagation.Trotter.C241_order_partial"
   ],
   "note": "The steps converge to the evolution with twice the drift Hamiltonian (C241_false_limit). If the last factor starts from the identity instead of a copy of the drift propagator, the error is of second order (C241_order_partial)."
  },
  {
   "property": "C242",
   "status": "partial",
   "theorems": [
    "C3.Chain.C242_set_partial",
    "C3.Chain.C242_accepted_iff",
    "C3.Chain.C242_signals",
    "C3.Chain.C242_unknown",
    "C3.Chain.C242_empty",
    "C3.Chain.C242_false_refused"
   ],
   "note": "A refused set_chains leaves the new chains in place with the old orders (C242_false_refused). Device functions are pure, see C48."
  },
  {
   "property": "C243",
   "status": "partial",
   "theorems": [
    "C3.Optim.Folded.C243_set",
    "C3.Optim.Folded.C243_global",
    "C3.Optim.Folded.C243_local",
    "C3.Optim.Folded.C243_slope",
    "C3.Optim.Folded.C243_value",
    "C3.Optim.Folded.C243_gradient",
    "C3.Optim.Folded.C243_stationary",
    "C3.Optim.Folded.C243_tape",
    "C3.Optim.Folded.C243_lookup_partial",
    "C3.Optim.Folded.C243_limit",
    "C3.Optim.Folded.C243_kink",
    "C3.Optim.Folded.C243_false_limit"
   ],
   "note": "At a limit the tape divides by zero and the algorithm gets 1e-10 whatever the goal is (C243_false_limit); there the folded goal has a kink (C243_kink). Real numbers instead of floats."
  },
  {
   "property": "C244",
   "status": "partial",
   "theorems": [
    "C3.Optim.Robust.C244_report_partial",
    "C3.Optim.Robust.C244_gradient_partial",
    "C3.Optim.Robust.C244_std",
    "C3.Optim.Robust.C244_false_optimized"
   ],
   "note": "A noise parameter that is optimized has no effect: the proposal overwrites the noise, and the old value is written back (C244_false_optimized). Scalar parameters; the tape's gradient is the derivative, see C243 for limits."
  },
  {
   "property": "C245",
   "status": "partial",
   "theorems": [
    "C3.Experiment.Learnable.C245_points",
    "C3.Experiment.Learnable.C245_points_phase",
    "C3.Experiment.Learnable.C245_relaxation",
    "C3.Experiment.Learnable.C245_t1",
    "C3.Experiment.Learnable.C245_ramsey_partial",
    "C3.Experiment.Learnable.C245_window_partial",
    "C3.Experiment.Learnable.C245_echo_partial",
    "C3.Experiment.Learnable.C245_devices",
    "C3.Experiment.Learnable.C245_false_turn",
    "C3.Experiment.Learnable.C245_false_sign",
    "C3.Experiment.Learnable.C245_false_one"
   ],
   "note": "Ramsey data fix the frequency only within half a turn per wait (C245_window_partial): frequencies that differ by full turns per wait (C245_false_turn), or that lie on the other side of the carrier (C245_false_sign), give the same data. One number of waits fixes neither (C245_false_one). Ramsey and echo for one of the decay times, see C236_false_both."
  },
  {
   "property": "C246",
   "status": "partial",
   "theorems": [
    "C3.Optim.Predict.C246_function_partial",
    "C3.Optim.Predict.C246_sum",
    "C3.Optim.Predict.C246_each",
    "C3.Optim.Predict.C246_rms",
    "C3.Optim.Predict.C246_false_leftover"
   ],
   "note": "If the targets have different maps of gate parameters, values of one data set are left over for the others: the same proposal has different goals when it is evaluated twice (C246_false_leftover). Targets other than all."
  },
  {
   "property": "C247",
   "status": "proved",
   "theorems": [
    "C3.Experiment.Chevron.C247_gate",
    "C3.Experiment.Chevron.C247_level",
    "C3.Experiment.Chevron.C247_populations",
    "C3.Experiment.Chevron.C247_resonant",
    "C3.Experiment.Chevron.C247_peak"
   ],
   "note": ""
  },
  {
   "property": "C248",
   "status": "proved",
   "theorems": [
    "C3.Propagation.C248_helpers",
    "C3.Propagation.C248_algebra",
    "C3.Propagation.C248_hermitian",
    "C3.Propagation.C248_pure",
    "C3.Propagation.C248_real",
    "C3.Propagation.C248_range",
    "C3.Propagation.C248_ehrenfest",
    "C3.Propagation.C248_stationary",
    "C3.Propagation.C248_commuting",
    "C3.Propagation.C248_solvers",
    "C3.Propagation.C248_solvers_closed",
    "C3.Propagation.C248_pwc",
    "C3.Propagation.C248_pwc_open"
   ],
   "note": ""
  },
  {
   "property": "C249",
   "status": "proved",
   "theorems": [
    "C3.Experiment.Selection.C249_gate",
    "C3.Experiment.Selection.C249_parity",
    "C3.Experiment.Selection.C249_forbidden",
    "C3.Experiment.Selection.C249_open_gate",
    "C3.Experiment.Selection.C249_open",
    "C3.Experiment.Selection.C249_groups"
   ],
   "note": ""
  },
  {
   "property": "C250",
   "status": "proved",
   "theorems": [
    "C3.Experiment.Separate.C250_gate",
    "C3.Experiment.Separate.C250_gate_open",
    "C3.Experiment.Separate.C250_closed",
    "C3.Experiment.Separate.C250_open",
    "C3.Experiment.Separate.C250_basis",
    "C3.Experiment.Separate.C250_product",
    "C3.Experiment.Separate.C250_decay",
    "C3.Hilbert.opsOf_entry",
    "C3.Hilbert.opsOf_commute"
   ],
   "note": "Not in the dressed basis."
  },
  {
   "property": "C251",
   "status": "proved",
   "theorems": [
    "C3.Experiment.Units.C251_closed",
    "C3.Experiment.Units.C251_opened",
    "C3.Experiment.Units.C251_history",
    "C3.Experiment.Units.C251_history_open",
    "C3.Experiment.Units.C251_decay",
    "C3.Experiment.Units.C251_instruction"
   ],
   "note": "Instructions as in C219."
  },
  {
   "property": "C252",
   "status": "proved",
   "theorems": [
    "C3.Experiment.Reorder.C252_states",
    "C3.Experiment.Reorder.C252_closed",
    "C3.Experiment.Reorder.C252_opened",
    "C3.Experiment.Reorder.C252_populations",
    "C3.Experiment.Reorder.C252_populations_open"
   ],
   "note": ""
  },
  {
   "property": "C253",
   "status": "proved",
   "theorems": [
    "C3.Experiment.Merit.C253_project",
    "C3.Experiment.Merit.C253_project_super",
    "C3.Experiment.Merit.C253_unitary",
    "C3.Experiment.Merit.C253_average",
    "C3.Experiment.Merit.C253_lindblad",
    "C3.Experiment.Merit.C253_state",
    "C3.Experiment.Merit.C253_ideal",
    "C3.Experiment.Merit.C253_ideal_index",
    "C3.Experiment.Merit.C253_set",
    "C3.Experiment.Merit.C253_index",
    "C3.Experiment.Merit.C253_goal",
    "C3.Experiment.Merit.C253_false_default_targets"
   ],
   "note": "The exception named in the statement, instructions without targets, is C253_false_default_targets."
  },
  {
   "property": "C254",
   "status": "proved",
   "theorems": [
    "C3.Experiment.Listing.C254_closed",
    "C3.Experiment.Listing.C254_opened",
    "C3.Experiment.Listing.C254_compute",
    "C3.Experiment.Listing.C254_populations",
    "C3.Experiment.Listing.C254_populations_open"
   ],
   "note": ""
  },
  {
   "property": "C255",
   "status": "proved",
   "theorems": [
    "C3.Experiment.Backwards.C255_sample",
    "C3.Experiment.Backwards.C255_gate",
    "C3.Experiment.Backwards.C255_symmetric",
    "C3.Experiment.Backwards.C255_populations"
   ],
   "note": ""
  },
  {
   "property": "C256",
   "status": "proved",
   "theorems": [
    "C3.Experiment.Signs.C256_closed",
    "C3.Experiment.Signs.C256_opened",
    "C3.Experiment.Signs.C256_populations",
    "C3.Experiment.Signs.C256_populations_open",
    "C3.Experiment.Signs.C256_basis",
    "C3.Experiment.Signs.C256_mixture",
    "C3.Experiment.Signs.C256_self"
   ],
   "note": ""
  },
  {
   "property": "C257",
   "status": "proved",
   "theorems": [
    "C3.Experiment.Limits.C257_closed",
    "C3.Experiment.Limits.C257_opened",
    "C3.Experiment.Limits.C257_unknown"
   ],
   "note": ""
  },
  {
   "property": "C258",
   "status": "partial",
   "theorems": [
    "C3.Timing.Kinds.C258_sum_partial",
    "C3.Timing.Kinds.C258_false",
    "C3.Timing.Kinds.C258_raises_iff_false",
    "C3.Timing.Kinds.C258_single_argument",
    "C3.Timing.Kinds.C258_drag_real",
    "C3.Timing.Kinds.C258_agrees"
   ],
   "note": "False for net-zero envelopes: get_awg_signal passes the length of the window as a second argument, which EnvelopeNetZero.get_shape_values does not accept (TypeError), so exactly the instructions with such an envelope raise. The derivative of DRAG envelopes is a parameter of the model (C157)."
  },
  {
   "property": "C259",
   "status": "proved",
   "theorems": [
    "C3.Experiment.Preparation.C259_open",
    "C3.Experiment.Preparation.C259_closed",
    "C3.Experiment.Preparation.C259_faulty_preparation",
    "C3.Experiment.Preparation.C259_rotated_preparation",
    "C3.Experiment.Preparation.C259_mixture",
    "C3.Experiment.Preparation.C259_kets"
   ],
   "note": ""
  },
  {
   "property": "C260",
   "status": "proved",
   "theorems": [
    "C3.Experiment.Cutting.C260_closed",
    "C3.Experiment.Cutting.C260_opened",
    "C3.Experiment.Cutting.C260_populations",
    "C3.Experiment.Cutting.C260_populations_open"
   ],
   "note": ""
  },
  {
   "property": "C261",
   "status": "proved",
   "theorems": [
    "C3.Experiment.Mixing.C261_open",
    "C3.Experiment.Mixing.C261_mixed",
    "C3.Experiment.Mixing.C261_ceiling",
    "C3.Experiment.Mixing.C261_components",
    "C3.Experiment.Mixing.C261_closed",
    "C3.Experiment.Mixing.C261_bound",
    "C3.Experiment.Mixing.C261_convex",
    "C3.Experiment.Mixing.C261_entropy"
   ],
   "note": ""
  },
  {
   "property": "C262",
   "status": "proved",
   "theorems": [
    "C3.Experiment.LastFrame.C262_gate",
    "C3.Experiment.LastFrame.C262_gate_open",
    "C3.Experiment.LastFrame.C262_closed",
    "C3.Experiment.LastFrame.C262_open",
    "C3.Experiment.LastFrame.C262_computed"
   ],
   "note": ""
  },
  {
   "property": "C263",
   "status": "proved",
   "theorems": [
    "C3.Experiment.WeakDrive.C263_leave",
    "C3.Experiment.WeakDrive.C263_change",
    "C3.Experiment.WeakDrive.C263_area",
    "C3.Experiment.WeakDrive.C263_dressed"
   ],
   "note": ""
  },
  {
   "property": "C264",
   "status": "proved",
   "theorems": [
    "C3.Experiment.Independent.C264_gate",
    "C3.Experiment.Independent.C264_gate_open",
    "C3.Experiment.Independent.C264_closed",
    "C3.Experiment.Independent.C264_open",
    "C3.Experiment.Independent.C264_basis",
    "C3.Experiment.Independent.C264_product"
   ],
   "note": ""
  },
  {
   "property": "C265",
   "status": "proved",
   "theorems": [
    "C3.Experiment.LeftOut.C265_gate",
    "C3.Experiment.LeftOut.C265_gate_open",
    "C3.Experiment.LeftOut.C265_closed",
    "C3.Experiment.LeftOut.C265_open",
    "C3.Experiment.LeftOut.C265_basis",
    "C3.Experiment.LeftOut.C265_decay"
   ],
   "note": ""
  },
  {
   "property": "C266",
   "status": "proved",
   "theorems": [
    "C3.Experiment.Mixture.C266_mixed",
    "C3.Experiment.Mixture.C266_ensemble",
    "C3.Experiment.Mixture.C266_incoherent"
   ],
   "note": ""
  },
  {
   "property": "C267",
   "status": "proved",
   "theorems": [
    "C3.Experiment.Recurrence.C267_gates",
    "C3.Experiment.Recurrence.C267_repetitions",
    "C3.Experiment.Recurrence.C267_undo"
   ],
   "note": ""
  },
  {
   "property": "C268",
   "status": "proved",
   "theorems": [
    "C3.Experiment.Repetition.C268_gates_open",
    "C3.Experiment.Repetition.C268_gates_closed",
    "C3.Experiment.Repetition.C268_determined",
    "C3.Experiment.Repetition.C268_closed",
    "C3.Experiment.Repetition.C268_open"
   ],
   "note": ""
  },
  {
   "property": "C269",
   "status": "proved",
   "theorems": [
    "C3.Experiment.Stationary.C269_gates_open",
    "C3.Experiment.Stationary.C269_gates_closed",
    "C3.Experiment.Stationary.C269_closed",
    "C3.Experiment.Stationary.C269_open"
   ],
   "note": ""
  },
  {
   "property": "C270",
   "status": "proved",
   "theorems": [
    "C3.Experiment.Settle.C270_gates",
    "C3.Experiment.Settle.C270_open"
   ],
   "note": ""
  },
  {
   "property": "C271",
   "status": "proved",
   "theorems": [
    "C3.Experiment.Ergodic.C271_gates",
    "C3.Experiment.Ergodic.C271_gates_closed",
    "C3.Experiment.Ergodic.C271_open",
    "C3.Experiment.Ergodic.C271_closed"
   ],
   "note": ""
  },
  {
   "property": "C272",
   "status": "proved",
   "theorems": [
    "C3.Experiment.ReadoutNear.C272_confuse",
    "C3.Experiment.ReadoutNear.C272_average",
    "C3.Experiment.ReadoutNear.C272_open",
    "C3.Experiment.ReadoutNear.C272_closed"
   ],
   "note": ""
  }
 ]
}