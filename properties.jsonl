{"id": "C01", "title": "A stored quantity reads back what was written", "statement": "After q.set_value(v) returns without raising, q.numpy() equals v (in the quantity's own unit) and q.get_value() equals v times the unit factor, element by element; if it raises, the quantity is exactly what it was before.", "quantifier": "every quantity with distinct limits, every unit factor, every value and every array length", "why_tests_cant": "the round trip is an affine identity over a continuum of limits and values and of array shapes; a test samples a handful of them", "anchors": ["c3/c3objs.py:Quantity.set_value", "c3/c3objs.py:Quantity._set_value", "c3/c3objs.py:Quantity.get_value", "c3/c3objs.py:Quantity.numpy"]}
{"id": "C02", "title": "A quantity never leaves its limits", "statement": "After any sequence of set_value, set_opt_value and extending writes (some rejected), every element of the quantity lies between the limits reported by get_limits(), up to the documented closeness tolerance used by the acceptance test.", "quantifier": "every starting quantity and every finite history of writes", "why_tests_cant": "an invariant over unbounded histories; a test runs one history", "anchors": ["c3/c3objs.py:Quantity._set_value", "c3/c3objs.py:Quantity.set_opt_value", "c3/c3objs.py:Quantity._set_value_extend", "c3/c3objs.py:Quantity.get_limits"]}
{"id": "C03", "title": "Optimizer steps are folded into the limits", "statement": "set_opt_value accepts any real vector, the resulting value lies within the limits, and vectors already in [-1,1] are taken over unchanged.", "quantifier": "every real vector an optimizer may propose", "why_tests_cant": "the optimizer may propose any real number; the claim is about an infinite triangular-wave fold", "anchors": ["c3/c3objs.py:Quantity.set_opt_value", "c3/c3objs.py:Quantity.get_opt_value"]}
{"id": "C04", "title": "Out-of-limit writes are rejected, in-limit writes are accepted", "statement": "set_value(v) raises exactly when some element of v lies outside the limits by more than the relative tolerance of the acceptance test; a value inside the limits is never rejected.", "quantifier": "every quantity with distinct limits and every candidate value", "why_tests_cant": "needs both directions of an equivalence over a continuum including the boundary", "anchors": ["c3/c3objs.py:Quantity._set_value"]}
{"id": "C05", "title": "Extending writes always succeed and never shrink the limits", "statement": "set_value(v, extend_bounds=True) never raises, the value reads back as v, and the new limits contain the old limits.", "quantifier": "every quantity and every value of the right shape", "why_tests_cant": "quantifies over all values far outside the limits and all signs", "anchors": ["c3/c3objs.py:Quantity._set_value_extend"]}
{"id": "C06", "title": "A quantity survives serialisation", "statement": "Building a Quantity from q.asdict() gives a quantity with the same value, limits and unit factor.", "quantifier": "every quantity", "why_tests_cant": "round trip over all values, limits and units", "anchors": ["c3/c3objs.py:Quantity.asdict", "c3/c3objs.py:Quantity.__init__"]}
{"id": "C07", "title": "Arithmetic on quantities acts on the value", "statement": "q+x, q-x, q*x, q/x, q**n, -q etc. yield a quantity whose get_value() is the same operation applied to q.get_value(), and leave q unchanged.", "quantifier": "every quantity, every operand, every unit", "why_tests_cant": "depends on the unit factor; tests in the repository use units without pi", "anchors": ["c3/c3objs.py:Quantity.__add__", "c3/c3objs.py:Quantity.__mul__", "c3/c3objs.py:Quantity.add", "c3/c3objs.py:Quantity.subtract"]}
{"id": "C08", "title": "Default limits always admit the default value", "statement": "A Quantity created without explicit limits is created successfully and its value lies within the limits chosen for it.", "quantifier": "every value array, of any sign and length", "why_tests_cant": "the sign of the entries decides which product is the lower limit; all arrays must be covered", "anchors": ["c3/c3objs.py:Quantity.__init__"]}
{"id": "C09", "title": "Setting parameters reads back", "statement": "If set_parameters(values, opt_map) succeeds, get_parameters(opt_map) afterwards yields the given values in order, provided no parameter is listed in two groups.", "quantifier": "every parameter map, opt_map and value list", "why_tests_cant": "arbitrary sizes and nestings of groups", "anchors": ["c3/parametermap.py:ParameterMap.set_parameters", "c3/parametermap.py:ParameterMap.get_parameters"]}
{"id": "C10", "title": "Parameters in a group stay equal", "statement": "After a successful set_parameters every member of each equivalence group reads the same value.", "quantifier": "every parameter map and opt_map with disjoint groups", "why_tests_cant": "groups of any size", "anchors": ["c3/parametermap.py:ParameterMap.set_parameters"]}
{"id": "C11", "title": "Parameters not named are untouched", "statement": "set_parameters, whether it succeeds or raises, leaves every parameter not named in the opt_map exactly as it was.", "quantifier": "every parameter map, opt_map, value list", "why_tests_cant": "frame property over all other parameters and all failure points", "anchors": ["c3/parametermap.py:ParameterMap.set_parameters"]}
{"id": "C12", "title": "A failing update stops at the failing group", "statement": "If set_parameters raises an out-of-bounds error, the groups before the failing one hold the new values, the ones after it the old values, and the error names the failing group; a length mismatch raises before anything changes.", "quantifier": "every failure position in every update", "why_tests_cant": "the number of failure points is unbounded", "anchors": ["c3/parametermap.py:ParameterMap.set_parameters"]}
{"id": "C13", "title": "The optimizer vector round-trips", "statement": "set_parameters_scaled(get_parameters_scaled()) changes no parameter, and after set_parameters_scaled(x) with x in [-1,1] get_parameters_scaled() returns x; the vector has one entry per array element of each group.", "quantifier": "every opt_map over quantities of arbitrary lengths", "why_tests_cant": "slicing arithmetic over unbounded numbers and lengths of parameters", "anchors": ["c3/parametermap.py:ParameterMap.get_parameters_scaled", "c3/parametermap.py:ParameterMap.set_parameters_scaled", "c3/parametermap.py:ParameterMap._set_parameters_scaled_ctrls"]}
{"id": "C14", "title": "Index of the optimizer vector names the right parameter", "statement": "get_key_from_scaled_index(i) returns the parameter whose slice of the scaled vector contains position i, and the empty string past the end.", "quantifier": "every opt_map and every index", "why_tests_cant": "off-by-one territory over unbounded lists of lengths", "anchors": ["c3/parametermap.py:ParameterMap.get_key_from_scaled_index"]}
{"id": "C15", "title": "Only known parameters can be optimised", "statement": "set_opt_map raises on any unknown identifier and then keeps the previous map; on success every identifier resolves.", "quantifier": "every map of identifiers", "why_tests_cant": "all positions of an unknown identifier", "anchors": ["c3/parametermap.py:ParameterMap.set_opt_map"]}
{"id": "C16", "title": "Groups with different limits are refused", "statement": "set_opt_map checks that the quantities grouped together in the map being set have the same limits.", "quantifier": "every map being installed", "why_tests_cant": "must hold for the new map regardless of the old one", "anchors": ["c3/parametermap.py:ParameterMap.check_limits", "c3/parametermap.py:ParameterMap.set_opt_map"]}
{"id": "C17", "title": "Stored values reload", "statement": "store_values followed by load_values into any map with the same parameters restores the values of the optimised parameters.", "quantifier": "every parameter map and opt_map", "why_tests_cant": "round trip over all contents", "anchors": ["c3/parametermap.py:ParameterMap.store_values", "c3/parametermap.py:ParameterMap.load_values"]}
{"id": "C18", "title": "The model is rebuilt when a model parameter changes", "statement": "After set_parameters succeeds the model has been updated exactly if one of the named parameters belongs to the model.", "quantifier": "every opt_map", "why_tests_cant": "all mixtures of model and control parameters", "anchors": ["c3/parametermap.py:ParameterMap.set_parameters"]}
{"id": "C19", "title": "Folded multiplication equals time-ordered product", "statement": "For N time slices the folded tree multiplication returns dU_N ... dU_2 dU_1, with the folding stack computed for N.", "quantifier": "every N >= 1 and all slice propagators of a non-commutative monoid", "why_tests_cant": "halving recursion over every N, including odd sizes at every level", "anchors": ["c3/utils/tf_utils.py:tf_matmul_n", "c3/experiment.py:Experiment._compute_folding_stack"]}
{"id": "C20", "title": "The batch size does not change the propagators", "statement": "Propagating the slices in batches of any size gives the same list of slice propagators, in the same order, as one batch.", "quantifier": "every number of slices and every batch size >= 1", "why_tests_cant": "boundary cases of the ceil-divided batches for all sizes", "anchors": ["c3/libraries/propagation.py:tf_batch_propagate"]}
{"id": "C21", "title": "A gate sequence acts in the order written", "statement": "The propagator of a sequence is the product with the first gate rightmost; concatenating sequences multiplies propagators; the empty sequence is the identity; an unknown gate name raises.", "quantifier": "every gate dictionary and every sequence", "why_tests_cant": "unbounded sequences of non-commuting gates", "anchors": ["c3/libraries/propagation.py:evaluate_sequences"]}
{"id": "C22", "title": "Closed-system propagation is unitary", "statement": "If every Hamiltonian is Hermitian, every slice propagator and the gate propagator are unitary.", "quantifier": "every Hamiltonian list, control signals and step", "why_tests_cant": "continuum of Hamiltonians, any dimension", "anchors": ["c3/libraries/propagation.py:tf_dU_of_t", "c3/libraries/propagation.py:pwc", "c3/libraries/propagation.py:tf_propagation_vectorized"]}
{"id": "C23", "title": "Slicing a constant Hamiltonian does not matter", "statement": "With constant drift and control amplitudes, N slices of length T/N give the propagator of one slice of length T, for every N.", "quantifier": "every N, Hamiltonian and duration", "why_tests_cant": "all subdivisions", "anchors": ["c3/libraries/propagation.py:tf_dU_of_t", "c3/libraries/propagation.py:pwc"]}
{"id": "C24", "title": "Open-system generator is the Lindblad master equation", "statement": "The superoperator built from H and the collapse operators acts on the vectorised state as -i[H,rho] + sum L rho L+ - 1/2{L+L, rho}.", "quantifier": "every H, every list of collapse operators, every density matrix, every dimension", "why_tests_cant": "tensor-index identity in all dimensions", "anchors": ["c3/libraries/propagation.py:tf_dU_of_t_lind", "c3/utils/tf_utils.py:tf_spre", "c3/utils/tf_utils.py:tf_spost"]}
{"id": "C25", "title": "Open-system propagation preserves trace", "statement": "Every slice propagator of the open-system path preserves the trace of every density matrix, hence so does the whole gate.", "quantifier": "every H, collapse operators, step, number of slices", "why_tests_cant": "all generators; exponential of an arbitrary generator", "anchors": ["c3/libraries/propagation.py:tf_dU_of_t_lind", "c3/libraries/propagation.py:tf_propagation_lind"]}
{"id": "C26", "title": "Superoperator of a unitary acts by conjugation on the vectorised state", "statement": "tf_super(U) applied to tf_dm_to_vec(rho) is tf_dm_to_vec(U rho U+).", "quantifier": "every U and rho in every dimension", "why_tests_cant": "depends on the stacking convention, invisible on diagonal states used in tests", "anchors": ["c3/utils/tf_utils.py:tf_super", "c3/utils/tf_utils.py:tf_dm_to_vec", "c3/utils/tf_utils.py:tf_vec_to_dm"]}
{"id": "C27", "title": "ODE solvers keep the trace and hermiticity of a density matrix", "statement": "One step, and hence the whole run, of each Runge-Kutta solver with the von Neumann or Lindblad step function keeps the trace (and hermiticity) of the state.", "quantifier": "every solver, Hamiltonian samples, collapse operators, step size, state", "why_tests_cant": "all inputs of four multi-stage schemes", "anchors": ["c3/libraries/propagation.py:rk4", "c3/libraries/propagation.py:rk38", "c3/libraries/propagation.py:rk5", "c3/libraries/propagation.py:tsit5", "c3/libraries/propagation.py:lindblad", "c3/libraries/propagation.py:von_neumann"]}
{"id": "C28", "title": "Final-state solver agrees with the trajectory solver", "statement": "compute_final_state / ode_solver_final_state returns the last state of ode_solver for the same inputs.", "quantifier": "every solver, signal and number of steps", "why_tests_cant": "loop equivalence for all lengths", "anchors": ["c3/libraries/propagation.py:ode_solver", "c3/libraries/propagation.py:ode_solver_final_state"]}
{"id": "C29", "title": "Trajectory times are cumulative", "statement": "compute_states over a sequence of gates returns time stamps that increase through the sequence, gate k starting where gate k-1 ended.", "quantifier": "every sequence of gates", "why_tests_cant": "needs sequences of three or more gates; all lengths", "anchors": ["c3/experiment.py:Experiment.compute_states"]}
{"id": "C30", "title": "Runge-Kutta step reproduces the exponential to its order", "statement": "For a constant generator one step of rk4/rk38/rk5 is the Taylor polynomial of the exponential to the method's order.", "quantifier": "every generator and step size", "why_tests_cant": "polynomial identity in non-commuting algebra", "anchors": ["c3/libraries/propagation.py:rk4", "c3/libraries/propagation.py:rk38", "c3/libraries/propagation.py:rk5"]}
{"id": "C31", "title": "State labels enumerate the Hilbert space exactly once", "statement": "state_labels lists every combination of subsystem levels exactly once, has length equal to the product of dimensions, and get_state_index is its inverse (kron order: last subsystem fastest).", "quantifier": "every list of dimensions and every label", "why_tests_cant": "mixed-radix bijection in all dimensions", "anchors": ["c3/model.py:Model.__create_labels", "c3/model.py:Model.get_state_index"]}
{"id": "C32", "title": "Subsystem operators act on their own subsystem only", "statement": "An operator embedded at position i has matrix elements op[l_i, l'_i] when all other levels agree and 0 otherwise; operators at different positions commute; embedding respects products.", "quantifier": "every list of dimensions, position and operator", "why_tests_cant": "all tensor structures", "anchors": ["c3/utils/qt_utils.py:hilbert_space_kron", "c3/model.py:Model.__create_annihilators"]}
{"id": "C33", "title": "Number operator counts excitations", "statement": "The resonator Hamiltonian of the embedded annihilator is diagonal with the subsystem's level as entry; duffing is n(n-1)/2.", "quantifier": "every dimension list and position", "why_tests_cant": "all truncations", "anchors": ["c3/libraries/hamiltonians.py:resonator", "c3/libraries/hamiltonians.py:duffing", "c3/model.py:Model.__create_annihilators"]}
{"id": "C34", "title": "Excitation cutting keeps exactly the allowed states", "statement": "cut then blow-up is the projector on labels with at most max_excitations; blow-up then cut is the identity; cutting is compatible with sums, adjoints; hermiticity is preserved.", "quantifier": "every dimension list, every maximum, every operator", "why_tests_cant": "all subspaces", "anchors": ["c3/model.py:Model.set_max_excitations", "c3/model.py:Model.cut_excitations", "c3/model.py:Model.blowup_excitations"]}
{"id": "C35", "title": "Drift and control Hamiltonians are Hermitian", "statement": "All library Hamiltonian functions return Hermitian matrices when applied to the model's annihilators, so the model's drift and control Hamiltonians are Hermitian for all real parameters.", "quantifier": "every model: dimensions, components, couplings, real parameters", "why_tests_cant": "all models", "anchors": ["c3/libraries/hamiltonians.py:resonator", "c3/libraries/hamiltonians.py:duffing", "c3/libraries/hamiltonians.py:third_order", "c3/libraries/hamiltonians.py:int_XX", "c3/libraries/hamiltonians.py:int_YY", "c3/libraries/hamiltonians.py:x_drive", "c3/libraries/hamiltonians.py:y_drive", "c3/model.py:Model.update_Hamiltonians"]}
{"id": "C36", "title": "Dressed basis reordering is a valid basis change", "statement": "The reordering of eigenvectors maps every bare label to a distinct eigenvector, so the dressing transformation is unitary and preserves the spectrum and hermiticity of every operator it is applied to.", "quantifier": "every unitary eigenvector matrix", "why_tests_cant": "greedy assignment over all matrices and sizes, both branches", "anchors": ["c3/model.py:Model.reorder_frame", "c3/model.py:Model.update_dressed"]}
{"id": "C37", "title": "Frame rotation is a diagonal unitary one-parameter group", "statement": "The frame rotation is diagonal and unitary; for zero frame change it is additive in time; no drive lines give the identity.", "quantifier": "every model, frequency set and duration", "why_tests_cant": "continuum", "anchors": ["c3/model.py:Model.get_Frame_Rotation"]}
{"id": "C38", "title": "Dephasing channel is a channel", "statement": "The artificial dephasing map preserves trace and hermiticity, leaves populations untouched and never increases coherences, and is rejected for probabilities outside [0,1].", "quantifier": "every number of qubits, dimensions, amplitudes", "why_tests_cant": "all probabilities and dimensions", "anchors": ["c3/model.py:Model.get_dephasing_channel"]}
{"id": "C39", "title": "Time-dependent Hamiltonian is drift plus driven controls", "statement": "get_Hamiltonian(signal) equals the drift plus the sum over driven channels of value times control Hamiltonian at each time sample; an unknown channel raises.", "quantifier": "every model and signal", "why_tests_cant": "all channels and lengths", "anchors": ["c3/model.py:Model.get_Hamiltonian"]}
{"id": "C40", "title": "Independent decay channels add their rates", "statement": "With T1 and T2* (and temperature) specified, a component's dissipation is the sum of the individual dissipators.", "quantifier": "every set of rates and every state", "why_tests_cant": "identity on all states and rates", "anchors": ["c3/libraries/chip.py:Qubit.get_Lindbladian", "c3/libraries/chip.py:Transmon.get_Lindbladian"]}
{"id": "C41", "title": "Relaxation happens at rate 1/T1", "statement": "For a component with only T1 the excited-state population derivative is -population/T1.", "quantifier": "every T1 and state", "why_tests_cant": "all rates", "anchors": ["c3/libraries/chip.py:Qubit.get_Lindbladian", "c3/libraries/chip.py:Transmon.get_Lindbladian"]}
{"id": "C42", "title": "Thermal initial state is a Boltzmann distribution", "statement": "The thermal state is diagonal, non-negative, has unit trace and population ratios exp(-hbar*dE/kT).", "quantifier": "every drift spectrum and positive temperature", "why_tests_cant": "continuum", "anchors": ["c3/libraries/tasks.py:InitialiseGround.initialise", "c3/model.py:Model.get_init_state"]}
{"id": "C43", "title": "Flux tuning stays in the physical range", "statement": "The transmon frequency equals its bare frequency at zero flux, is periodic in the flux quantum, and lies between the anharmonicity-limited minimum and the bare value.", "quantifier": "every flux, asymmetry and parameters", "why_tests_cant": "continuum", "anchors": ["c3/libraries/chip.py:Transmon.get_factor", "c3/libraries/chip.py:Transmon.get_freq"]}
{"id": "C44", "title": "Devices run after their inputs", "statement": "For any accepted chain the processing order contains every device once and each after all its sources.", "quantifier": "every accepted chain graph", "why_tests_cant": "all graphs", "anchors": ["c3/generator/generator.py:Generator.__topological_ordering"]}
{"id": "C45", "title": "Every acyclic chain is accepted, every cyclic chain is rejected", "statement": "The ordering raises exactly when the chain has a cycle.", "quantifier": "every chain graph", "why_tests_cant": "all graphs, both directions", "anchors": ["c3/generator/generator.py:Generator.__topological_ordering"]}
{"id": "C46", "title": "Signal of a channel is the evaluation of its device graph", "statement": "generate_signals returns for every channel the value of its last device computed recursively from its sources, independent of the order chosen.", "quantifier": "every chain graph and device functions", "why_tests_cant": "all graphs and orders", "anchors": ["c3/generator/generator.py:Generator.generate_signals"]}
{"id": "C47", "title": "Malformed chains are refused", "statement": "A chain is accepted only if sources exist, share resolution, match the input counts and leave exactly one output.", "quantifier": "every device set and chain dictionary", "why_tests_cant": "all malformed combinations", "anchors": ["c3/generator/generator.py:Generator.__check_signal_chains"]}
{"id": "C48", "title": "Signal generation has no memory", "statement": "Generating signals for an instruction gives the same result whatever instructions were generated before.", "quantifier": "every history of generate_signals calls", "why_tests_cant": "unbounded histories", "anchors": ["c3/generator/devices.py:LO.process", "c3/generator/devices.py:VoltsToHertz.process", "c3/generator/devices.py:AWG.process", "c3/generator/generator.py:Generator.generate_signals"]}
{"id": "C49", "title": "Time samples tile the interval", "statement": "create_ts returns evenly spaced samples inside [t_start,t_end], the expected number of them, spacing close to 1/resolution, centred samples offset by half a step.", "quantifier": "every interval and resolution", "why_tests_cant": "rounding over a continuum", "anchors": ["c3/generator/devices.py:Device.create_ts", "c3/generator/devices.py:Device.calc_slice_num"]}
{"id": "C50", "title": "Crosstalk mixes channels linearly", "statement": "Crosstalk output channel i is the matrix row applied to all inputs; identity matrix changes nothing; time stamps unchanged.", "quantifier": "every number of channels, matrix and signal length", "why_tests_cant": "all sizes", "anchors": ["c3/generator/devices.py:Crosstalk.process"]}
{"id": "C51", "title": "Filters are causal convolutions", "statement": "tf_convolve(sig, resp) returns the first N samples of the linear convolution for every signal and response length.", "quantifier": "every pair of lengths and contents", "why_tests_cant": "all lengths; wrap-around only at special lengths", "anchors": ["c3/utils/tf_utils.py:tf_convolve"]}
{"id": "C52", "title": "IQ mixing and conversion are linear", "statement": "The mixer output is I1*I2+Q1*Q2 sample by sample, VoltsToHertz scales, offsets only change amplitudes, not time stamps.", "quantifier": "every signal", "why_tests_cant": "all signals", "anchors": ["c3/generator/devices.py:Mixer.process", "c3/generator/devices.py:VoltsToHertz.process", "c3/generator/devices.py:DC_Offset.process"]}
{"id": "C53", "title": "Trigger timing", "statement": "A component triggered by another starts exactly delay after the triggering component ends (or after the instruction start if untriggered), and the gate length is the latest end.", "quantifier": "every set of components with acyclic triggers", "why_tests_cant": "all trigger graphs", "anchors": ["c3/signal/gates.py:Instruction.get_timings", "c3/signal/gates.py:Instruction.get_full_gate_length"]}
{"id": "C54", "title": "Automatic gate length is a fixed point", "statement": "auto_adjust_t_end terminates with t_end such that every component ends within the gate.", "quantifier": "every instruction", "why_tests_cant": "loop termination over all instructions", "anchors": ["c3/signal/gates.py:Instruction.auto_adjust_t_end"]}
{"id": "C55", "title": "AWG signal is the sum of its components", "statement": "The AWG waveform of a channel is the sum of the enveloped components, each being zero outside its own window.", "quantifier": "every set of components and sample times", "why_tests_cant": "all sets", "anchors": ["c3/signal/gates.py:Instruction.get_awg_signal", "c3/signal/pulse.py:Envelope.get_shape_values"]}
{"id": "C56", "title": "Library gates are unitary", "statement": "Every ideal gate in the gate table is unitary, and inverse pairs (90p/90m) multiply to the identity.", "quantifier": "the whole gate table", "why_tests_cant": "exact algebra over sqrt(2), not floats", "anchors": ["c3/libraries/constants.py:GATES"]}
{"id": "C57", "title": "Ideal gate on a larger register", "statement": "The ideal gate of an instruction on selected targets acts as the named gate on those qubits and as identity on the rest, with the right total dimension.", "quantifier": "every dims list, target selection and gate", "why_tests_cant": "all registers", "anchors": ["c3/signal/gates.py:Instruction.get_ideal_gate", "c3/utils/qt_utils.py:kron_ids", "c3/utils/qt_utils.py:insert_mat_kron"]}
{"id": "C58", "title": "Net-zero pulses have zero area", "statement": "The net-zero envelope has the requested number of samples and sums to zero.", "quantifier": "every envelope and number of samples", "why_tests_cant": "odd and even lengths for all envelopes", "anchors": ["c3/signal/pulse.py:EnvelopeNetZero.get_shape_values"]}
{"id": "C59", "title": "Every Clifford product has an inverse in the set", "statement": "inverseC finds, for every sequence of Cliffords, an element undoing it up to a phase, so every randomized benchmarking sequence composes to the identity up to phase.", "quantifier": "every sequence of every length", "why_tests_cant": "unbounded random sequences; group closure", "anchors": ["c3/utils/qt_utils.py:inverseC", "c3/utils/qt_utils.py:single_length_RB", "c3/libraries/constants.py:CLIFFORDS"]}
{"id": "C60", "title": "Clifford decompositions are right", "statement": "Evaluating the decomposition of each Clifford with the ideal 90-degree gates gives the tabulated Clifford up to phase.", "quantifier": "all 24 elements", "why_tests_cant": "exact algebra over the whole table", "anchors": ["c3/utils/qt_utils.py:cliffords_decomp", "c3/libraries/constants.py:CLIFFORDS"]}
{"id": "C61", "title": "Unitary infidelity is a proper figure of merit", "statement": "unitary_infid lies in [0,1] for unitary arguments and is zero exactly when the gates agree up to a global phase; invariant under global phase.", "quantifier": "every pair of unitaries of every dimension", "why_tests_cant": "Cauchy-Schwarz over all matrices", "anchors": ["c3/utils/tf_utils.py:tf_unitary_overlap", "c3/libraries/fidelities.py:unitary_infid"]}
{"id": "C62", "title": "State infidelity is a proper figure of merit", "statement": "state_transfer_infid lies in [0,1] for normalised states and vanishes exactly when they agree up to phase.", "quantifier": "every pair of states", "why_tests_cant": "Cauchy-Schwarz", "anchors": ["c3/utils/tf_utils.py:tf_ketket_fid", "c3/libraries/fidelities.py:state_transfer_infid"]}
{"id": "C63", "title": "Average fidelity of identical gates is one", "statement": "average_infid is zero for equal gates and in [0,1] for all unitaries.", "quantifier": "every unitary and number of qubits", "why_tests_cant": "all gates", "anchors": ["c3/utils/tf_utils.py:tf_average_fidelity", "c3/utils/tf_utils.py:tf_super_to_fid", "c3/utils/tf_utils.py:tf_choi_to_chi", "c3/libraries/fidelities.py:average_infid"]}
{"id": "C64", "title": "Projection to the computational subspace picks the right block", "statement": "tf_project_to_comp of an operator on the full space returns the matrix elements between labels with all levels in {0,1} and spectators in the ground state.", "quantifier": "every dims list, index set and operator", "why_tests_cant": "all embeddings", "anchors": ["c3/utils/tf_utils.py:tf_project_to_comp", "c3/utils/qt_utils.py:projector"]}
{"id": "C65", "title": "Populations are a probability distribution", "statement": "Populations of a normalised state or density matrix are non-negative and sum to one, and a unitary gate sequence preserves that.", "quantifier": "every state and sequence", "why_tests_cant": "all states", "anchors": ["c3/experiment.py:Experiment.populations", "c3/libraries/fidelities.py:populations", "c3/experiment.py:Experiment.evaluate_legacy"]}
{"id": "C66", "title": "Benchmark sequences have the requested length", "statement": "RB sequences, T1, Ramsey and echo sequences contain the requested number of waits/Cliffords.", "quantifier": "every length", "why_tests_cant": "parity and edge lengths", "anchors": ["c3/utils/qt_utils.py:single_length_RB", "c3/utils/qt_utils.py:T1_sequence", "c3/utils/qt_utils.py:ramsey_sequence", "c3/utils/qt_utils.py:ramsey_echo_sequence"]}
{"id": "C67", "title": "Readout confusion conserves probability", "statement": "The confusion matrix maps probability vectors to probability vectors for every number of qubits and rows in [0,1].", "quantifier": "every number of qubits, rows and populations", "why_tests_cant": "all Kronecker products", "anchors": ["c3/libraries/tasks.py:ConfusionMatrix.confuse"]}
{"id": "C68", "title": "Only the requested gates are recomputed", "statement": "compute_propagators computes exactly the selected gates (all if none selected), refuses unknown ones, and keeps other previously computed propagators unless overwriting is requested.", "quantifier": "every instruction set, selection and history", "why_tests_cant": "all histories", "anchors": ["c3/experiment.py:Experiment.compute_propagators", "c3/experiment.py:Experiment.set_opt_gates", "c3/experiment.py:Experiment.set_opt_gates_seq"]}
{"id": "C69", "title": "Measurement processing selects the asked labels", "statement": "process(labels) returns the sum of the populations of the given labels, with confusion and rescaling applied in that order; unknown labels raise.", "quantifier": "every label list, populations and task set", "why_tests_cant": "all label lists", "anchors": ["c3/experiment.py:Experiment.process", "c3/libraries/tasks.py:MeasurementRescale.rescale"]}
{"id": "C70", "title": "The recorded best point is the best evaluation", "statement": "After any sequence of evaluations, the stored best goal is the smallest goal seen and the stored parameters are those of that evaluation.", "quantifier": "every history of goal values", "why_tests_cant": "unbounded histories, ties, NaN-free reals", "anchors": ["c3/optimizers/optimizer.py:Optimizer.log_parameters"]}
{"id": "C71", "title": "A crash loses at most the evaluation in progress", "statement": "At any crash point the best-point file holds either the previous or the new best point.", "quantifier": "every crash point", "why_tests_cant": "all crash points inside the write", "anchors": ["c3/optimizers/optimizer.py:Optimizer.log_parameters", "c3/parametermap.py:ParameterMap.store_values"]}
{"id": "C72", "title": "The gradient returned belongs to the queried point", "statement": "lookup_gradient(x) returns the gradient stored by the latest evaluation at x, replaces NaN/inf entries, and a second lookup raises.", "quantifier": "every interleaving of evaluations and lookups", "why_tests_cant": "all histories and points", "anchors": ["c3/optimizers/optimizer.py:Optimizer.lookup_gradient", "c3/optimizers/optimizer.py:Optimizer.fct_to_min_autograd"]}
{"id": "C73", "title": "The logged parameters are the ones evaluated", "statement": "fct_to_min logs for every proposal the physical values that the goal function was evaluated with.", "quantifier": "every proposed vector", "why_tests_cant": "out-of-range and vector-valued parameters", "anchors": ["c3/optimizers/optimizer.py:Optimizer.fct_to_min", "c3/c3objs.py:Quantity.get_other_value"]}
{"id": "C74", "title": "Learning and validation data do not overlap", "statement": "The points used for validation are exactly the points not used for learning, for each sampling method.", "quantifier": "every data set, batch size and sampling method", "why_tests_cant": "all sizes; nondeterministic sampling", "anchors": ["c3/optimizers/modellearning.py:ModelLearning.select_from_data", "c3/libraries/sampling.py:from_start", "c3/libraries/sampling.py:from_end", "c3/libraries/sampling.py:even", "c3/libraries/sampling.py:random_sample"]}
{"id": "C75", "title": "Samplers return valid, distinct indices, at most the batch size", "statement": "Each sampling function returns distinct valid indices and no more than batch_size of them.", "quantifier": "every data set size and batch size", "why_tests_cant": "all sizes", "anchors": ["c3/libraries/sampling.py:all", "c3/libraries/sampling.py:from_start", "c3/libraries/sampling.py:from_end", "c3/libraries/sampling.py:even"]}
{"id": "C76", "title": "Combined figure of merit equals that of the pooled data", "statement": "Combining per-set log-likelihoods with the sequence counts as weights gives the figure of merit of the pooled data; the combined gradient is its gradient.", "quantifier": "every partition of the data", "why_tests_cant": "all partitions", "anchors": ["c3/libraries/estimators.py:g_LL_prime", "c3/libraries/estimators.py:g_LL_prime_combined", "c3/libraries/estimators.py:dv_g_LL_prime"]}
{"id": "C77", "title": "Custom stopping at a cloud size works", "statement": "cmaes stops when the cloud is smaller than the user's stop_at_sigma.", "quantifier": "every requested sigma", "why_tests_cant": "fractional values", "anchors": ["c3/libraries/algorithms.py:cmaes"]}
{"id": "C78", "title": "A sweep covers its bounds", "statement": "sweep evaluates the requested number of evenly spaced points from the lower to the upper bound, all probe points, and nothing outside the (extended) bounds.", "quantifier": "every bounds, points, probe list", "why_tests_cant": "all", "anchors": ["c3/libraries/algorithms.py:sweep", "c3/libraries/algorithms.py:grid2D"]}
{"id": "C79", "title": "Shot counts add up to the number of shots", "statement": "The counts returned for a measured circuit are non-negative and sum to the number of shots.", "quantifier": "every population vector and shots", "why_tests_cant": "rounding over all vectors", "anchors": ["c3/qiskit/c3_backend.py:C3QasmSimulator.generate_shot_readout"]}
{"id": "C80", "title": "Label flipping is a permutation", "statement": "flip_labels reverses qubit order without merging outcomes, so total counts are preserved and flipping twice restores them.", "quantifier": "every counts dictionary", "why_tests_cant": "all labels incl. trailing zeros", "anchors": ["c3/qiskit/c3_backend_utils.py:flip_labels"]}
{"id": "C81", "title": "A valid initial state is accepted, an invalid one refused", "statement": "run() accepts exactly initial state vectors of the right dimension and norm one.", "quantifier": "every state vector and run history", "why_tests_cant": "depends on what ran before", "anchors": ["c3/qiskit/c3_backend.py:C3QasmSimulator._validate_initial_statevector", "c3/qiskit/c3_backend.py:C3QasmSimulator._set_options"]}
{"id": "C82", "title": "Derivative envelopes are the derivatives", "statement": "The library's derivative envelopes are the time derivatives of the envelopes they are documented for.", "quantifier": "every time and parameters", "why_tests_cant": "continuum", "anchors": ["c3/libraries/envelopes.py:gaussian_der_nonorm", "c3/libraries/envelopes.py:gaussian_der", "c3/libraries/envelopes.py:drag_der", "c3/libraries/envelopes.py:gaussian_nonorm", "c3/libraries/envelopes.py:drag_sigma"]}
{"id": "C83", "title": "Envelopes are bounded and symmetric", "statement": "Cosine, Gaussian and trapezoid envelopes stay in [0,1] inside the pulse, are symmetric about the middle, and vanish at the pulse ends where stated.", "quantifier": "every time and parameters", "why_tests_cant": "continuum", "anchors": ["c3/libraries/envelopes.py:cosine", "c3/libraries/envelopes.py:gaussian_nonorm", "c3/libraries/envelopes.py:trapezoid", "c3/libraries/envelopes.py:gaussian_sigma", "c3/libraries/envelopes.py:pwc_symmetric"]}
{"id": "C84", "title": "Potential derivatives are right", "statement": "The hard-coded derivatives of the flux-qubit and fluxonium potentials are the derivatives of the potential for every order provided.", "quantifier": "every phase and parameters", "why_tests_cant": "continuum", "anchors": ["c3/libraries/chip.py:CShuntFluxQubit.get_potential_function", "c3/libraries/chip.py:Fluxonium.get_potential_function"]}
{"id": "C85", "title": "flatten returns the leaves in order", "statement": "flatten of an arbitrarily nested list returns exactly its leaves from left to right and terminates.", "quantifier": "every nesting", "why_tests_cant": "unbounded depth, empty sublists anywhere", "anchors": ["c3/utils/utils.py:flatten"]}
{"id": "C86", "title": "Engineering notation preserves the number", "statement": "eng_num returns mantissa and prefix whose product is the original number.", "quantifier": "every real number", "why_tests_cant": "all magnitudes and signs", "anchors": ["c3/utils/utils.py:eng_num"]}
{"id": "C87", "title": "A quantity reports the limits it was given", "statement": "Quantity(value, min_val=a, max_val=b) that is created successfully reports get_limits() = (a, b), reads back its value, and admits no value outside of the interval between a and b (up to the tolerance).", "quantifier": "every pair of limits in either order, every unit and value", "why_tests_cant": "the unit factor is multiplied in and divided out again; the order of the two limits is arbitrary user input", "anchors": ["c3/c3objs.py:Quantity.__init__", "c3/c3objs.py:Quantity._set_limits", "c3/c3objs.py:Quantity.get_limits"]}
{"id": "C88", "title": "Density matrix of a ket", "statement": "tf_state_to_dm(psi) is |psi><psi|, a Hermitian matrix of trace |psi|^2.", "quantifier": "every ket", "why_tests_cant": "needs complex amplitudes; tests use basis states", "anchors": ["c3/utils/tf_utils.py:tf_state_to_dm", "c3/experiment.py:Experiment.expect_oper"]}
{"id": "C89", "title": "Open-system propagation maps density matrices to density matrices", "statement": "For Hermitian Hamiltonians, any collapse operators and dt >= 0, every slice and every gate maps positive semidefinite matrices of trace one to such matrices.", "quantifier": "every H, collapse operators, signals, batch size, state and dimension", "why_tests_cant": "positivity of the exponential of an arbitrary generator", "anchors": ["c3/libraries/propagation.py:tf_propagation_lind", "c3/libraries/propagation.py:pwc"]}
{"id": "C90", "title": "Series exponential", "statement": "tf_expm(A, terms) is the partial sum of the exponential series with max(terms, 2) terms and converges to the matrix exponential.", "quantifier": "every matrix and number of terms", "why_tests_cant": "all matrices and orders, limit", "anchors": ["c3/libraries/propagation.py:tf_expm"]}
{"id": "C91", "title": "Solvers sample the signal at their own nodes", "statement": "In step i the j-th Hamiltonian sample given to a Runge-Kutta solver belongs to time t_i + c_j dt, with c_j the node of stage j of that solver's tableau.", "quantifier": "every regular time grid, step and stage", "why_tests_cant": "sorting of concatenated grids and slicing for all lengths", "anchors": ["c3/utils/tf_utils.py:interpolate_signal", "c3/libraries/propagation.py:ode_solver", "c3/libraries/propagation.py:solver_slicing"]}
{"id": "C92", "title": "High-pass filtering is a centred correlation of the same length", "statement": "HighpassFilter.convolve returns a signal of the input's length; for a response of odd length each output sample is the sum of the neighbouring samples weighted by the response, centred on that sample, with samples outside of the signal counted as zero.", "quantifier": "all signals and all responses of odd length", "why_tests_cant": "Tests compare one stored pulse; off-by-one centring errors show up only for particular lengths.", "anchors": ["c3/generator/devices.py:HighpassFilter.convolve"]}
{"id": "C93", "title": "Step filters reproduce their step response", "statement": "A step-function filter applied to a unit step returns the samples of its step response.", "quantifier": "all step functions and numbers of samples", "why_tests_cant": "A numerical test fixes one step function and length.", "anchors": ["c3/generator/devices.py:StepFuncFilter.process"]}
{"id": "C94", "title": "The response filter never amplifies", "statement": "The FFT response filter has unit gain for constant signals (after the rise) and its output never exceeds the largest input sample.", "quantifier": "all signals and all non-negative responses", "why_tests_cant": "Overshoot depends on the signal; only finitely many signals can be tried.", "anchors": ["c3/generator/devices.py:ResponseFFT.process"]}
{"id": "C95", "title": "The DAC holds each AWG sample", "statement": "Upsampling by an integer factor repeats each AWG sample that many times, i.e. the output at a fine sample is the value of the coarse sample containing it.", "quantifier": "all signals and all integer upsampling factors", "why_tests_cant": "Rounding of resize indices depends on the lengths involved.", "anchors": ["c3/generator/devices.py:DigitalToAnalog.process"]}
{"id": "C96", "title": "The envelope mask passes the whole pulse", "statement": "Inside its window an envelope is passed unchanged (up to a negligible factor) and outside of it it is suppressed.", "quantifier": "all pulse lengths, resolutions and sample times", "why_tests_cant": "The mask fails only for long pulses (more than 500 samples), which tests do not use.", "anchors": ["c3/signal/pulse.py:Envelope.compute_mask"]}
{"id": "C97", "title": "Tuning devices report the change relative to the bias point", "statement": "FluxTuning returns exactly the difference between the tuned and the idle frequency of a transmon with the same parameters, CouplingTuning the difference to the coupling at the bias frequencies; no signal gives no change; with one input the second frequency stays at its bias.", "quantifier": "all parameters and signal values", "why_tests_cant": "Tests compare one stored trace.", "anchors": ["c3/generator/devices.py:FluxTuning.process", "c3/generator/devices.py:CouplingTuning.process", "c3/libraries/chip.py:Transmon.get_freq"]}
{"id": "C98", "title": "Ideal gate of an unknown name", "statement": "An instruction whose name has no entry in the gate table gets the one by one ideal matrix; get_ideal_gate does not raise but returns a matrix with ones between all levels of the targets, which is not unitary.", "quantifier": "every name without table entry, every register and target selection", "why_tests_cant": "the code only warns; the wrong matrix silently enters infidelities", "anchors": ["c3/signal/gates.py:Instruction.set_ideal", "c3/signal/gates.py:Instruction.get_ideal_gate", "c3/utils/qt_utils.py:insert_mat_kron"]}
{"id": "C99", "title": "Ideal parametric gates are rotations", "statement": "perfect_parametric_gate is the rotation cos(a/2) - i sin(a/2) P on the computational space of all subsystems, the identity on every other state, unitary, additive in the angle and refuses unknown Pauli names.", "quantifier": "every Pauli word, angle and list of dimensions", "why_tests_cant": "all angles and dimensions; exponential of a padded generator", "anchors": ["c3/utils/qt_utils.py:perfect_parametric_gate", "c3/utils/qt_utils.py:pad_matrix"]}
{"id": "C100", "title": "Set figures of merit with a proper subset of qubits", "statement": "average_infid_seq and state_transfer_infid_set compare a full-space ideal gate with a projected propagator: whenever the index selects fewer subsystems than exist they raise, whatever the gates and the initial state.", "quantifier": "every register, proper index, gate and state", "why_tests_cant": "all registers and index sets", "anchors": ["c3/libraries/fidelities.py:average_infid_seq", "c3/libraries/fidelities.py:state_transfer_infid_set", "c3/signal/gates.py:Instruction.get_ideal_gate"]}
{"id": "C101", "title": "Lindbladian average infidelity", "statement": "lindbladian_average_infid never returns a value for a non-empty register, because True is passed as the list of subsystems.", "quantifier": "every gate, propagator, index and register", "why_tests_cant": "all inputs", "anchors": ["c3/utils/tf_utils.py:tf_superoper_average_fidelity", "c3/libraries/fidelities.py:lindbladian_average_infid"]}
{"id": "C102", "title": "Open- and closed-system infidelity agree", "statement": "For the superoperator of a propagator lindbladian_unitary_infid returns the same number as unitary_infid does for the propagator.", "quantifier": "every propagator, ideal gate, register and index", "why_tests_cant": "all matrices", "anchors": ["c3/libraries/fidelities.py:lindbladian_unitary_infid", "c3/utils/tf_utils.py:tf_superoper_unitary_overlap"]}
{"id": "C103", "title": "Analytical error per Clifford", "statement": "epc_analytical and lindbladian_epc_analytical never return a value: the dictionary of Cliffords (keys are names) is indexed with integers.", "quantifier": "every set of propagators", "why_tests_cant": "all inputs", "anchors": ["c3/libraries/fidelities.py:epc_analytical", "c3/libraries/fidelities.py:lindbladian_epc_analytical", "c3/utils/qt_utils.py:perfect_cliffords"]}
{"id": "C104", "title": "ORBIT figure of merit", "statement": "orbit_infid lies in [0,1] for unitary propagators, vanishes exactly if all sequences return the ground state, and vanishes for ideal gates whatever sequences are drawn.", "quantifier": "every propagator set, number, length and draw of sequences", "why_tests_cant": "random sequences of unbounded length", "anchors": ["c3/libraries/fidelities.py:orbit_infid", "c3/utils/qt_utils.py:single_length_RB"]}
{"id": "C105", "title": "Randomized benchmarking", "statement": "RB raises for propagators with the usual names because the padding is used as target; the error per gate computed from a fit within bounds is in [0,1/2), zero exactly for perfect decay, monotone, and consistent with the error per Clifford.", "quantifier": "every propagator set, draws and fit result", "why_tests_cant": "all fit results", "anchors": ["c3/libraries/fidelities.py:RB", "c3/libraries/fidelities.py:lindbladian_RB_left", "c3/libraries/fidelities.py:lindbladian_RB_right"]}
{"id": "C106", "title": "Leakage randomized benchmarking", "statement": "leakage_RB fits the populations of the ground state and of the computational space; leakage, seepage and error per Clifford are rates in [0,1].", "quantifier": "every measured data set, number of refits and fit result", "why_tests_cant": "refits are rare", "anchors": ["c3/libraries/fidelities.py:leakage_RB"]}
{"id": "C107", "title": "State overlap of density matrices", "statement": "The overlap of a normalised density matrix with itself is one.", "quantifier": "every density matrix", "why_tests_cant": "all density matrices", "anchors": ["c3/libraries/fidelities.py:calculate_state_overlap", "c3/libraries/fidelities.py:state_transfer_from_states"]}
{"id": "C108", "title": "Expectation values are those of quantum mechanics", "statement": "expect_oper returns <psi|O|psi> for state vectors and Tr(O rho) for vectorized density matrices, and a real number for Hermitian operators.", "quantifier": "every state, operator and dimension", "why_tests_cant": "all states, including ones with complex amplitudes", "anchors": ["c3/experiment.py:Experiment.expect_oper"]}
{"id": "C109", "title": "The initial state of a model can be evaluated", "statement": "The state returned by Model.get_init_state has the shape that evaluate expects and gives the ground state (or the thermal state) populations, for closed and open systems.", "quantifier": "every system, with and without preparation task, open or closed", "why_tests_cant": "all dimensions and configurations", "anchors": ["c3/model.py:Model.get_init_state", "c3/model.py:Model.get_ground_state", "c3/experiment.py:Experiment.evaluate_legacy"]}
{"id": "C110", "title": "Setting the initial state survives switching dynamics", "statement": "A state set with set_init_state is the one evaluations start from, and switching open-system dynamics on and off restores it.", "quantifier": "every state and every sequence of switches", "why_tests_cant": "all sequences of calls", "anchors": ["c3/model.py:Model.set_init_state", "c3/model.py:Model.set_lindbladian", "c3/model.py:Model.update_init_state"]}
{"id": "C111", "title": "The selected propagation method is the one used", "statement": "compute_propagators uses the method given to the constructor or selected with set_prop_method; unknown names are refused.", "quantifier": "every method, instruction set and call history", "why_tests_cant": "all call orders", "anchors": ["c3/experiment.py:Experiment.set_prop_method", "c3/experiment.py:Experiment.compute_propagators", "c3/experiment.py:Experiment._compute_folding_stack"]}
{"id": "C112", "title": "An optimization ends at its best point", "statement": "After optimize_controls the parameter map holds the parameters of the evaluation with the smallest goal.", "quantifier": "every goal function and every list of proposals", "why_tests_cant": "all goal functions and proposals, also outside the range", "anchors": ["c3/optimizers/optimalcontrol.py:OptimalControl.optimize_controls", "c3/optimizers/optimizer.py:Optimizer.fct_to_min", "c3/parametermap.py:ParameterMap.load_values"]}
{"id": "C113", "title": "High-deviation and fidelity samplers prefer what they promise", "statement": "high_std returns the batch_size points with the highest ratio of standard deviation to mean; even_fid returns points in the order of their mean, starting with a lowest one.", "quantifier": "every data set and batch size", "why_tests_cant": "all data sets; argsort ties", "anchors": ["c3/libraries/sampling.py:high_std", "c3/libraries/sampling.py:even_fid"]}
{"id": "C114", "title": "The figure of merit is smallest for a matching model and zero on average", "statement": "g_LL_prime is at least -1/2, with equality exactly if all simulated values equal the measured ones, its mean over binomial measurement results of the right model is zero, and it is a finite number.", "quantifier": "every data with simulated probabilities, every number of shots", "why_tests_cant": "all real probabilities and distributions of results", "anchors": ["c3/libraries/estimators.py:g_LL_prime"]}
{"id": "C115", "title": "Estimators agree with each other", "statement": "On the same data neg_loglkh_gauss_norm = g_LL_prime + 1/2, rms_sim_stds_dist squared = 2 g_LL_prime + 1, and std_of_diffs squared = rms_dist squared - mean_dist squared.", "quantifier": "every data set", "why_tests_cant": "all data", "anchors": ["c3/libraries/estimators.py:g_LL_prime", "c3/libraries/estimators.py:neg_loglkh_gauss_norm", "c3/libraries/estimators.py:neg_loglkh_gauss_norm_sum", "c3/libraries/estimators.py:rms_sim_stds_dist", "c3/libraries/estimators.py:mean_dist", "c3/libraries/estimators.py:rms_dist", "c3/libraries/estimators.py:std_of_diffs"]}
{"id": "C116", "title": "Stopping at convergence counts the requested generations", "statement": "cmaes with stop_at_convergence = k stops when the cloud shrunk in each of the last k generations, and not before.", "quantifier": "every k and every sequence of cloud sizes", "why_tests_cant": "all sequences of cloud sizes", "anchors": ["c3/libraries/algorithms.py:cmaes", "c3/libraries/algorithms.py:gcmaes"]}
{"id": "C117", "title": "Artificial noise and the initial point are added as requested", "statement": "In cmaes, noise adds an independent error of that scale to every evaluation, batch_noise one common error of that scale per generation, and init_point evaluates the initial point once, first.", "quantifier": "every goal values and random numbers", "why_tests_cant": "random; all lists", "anchors": ["c3/libraries/algorithms.py:cmaes"]}
{"id": "C118", "title": "A repeated optimization uses the same options", "statement": "Running cmaes twice with the same options object uses the same options in both runs.", "quantifier": "every options dictionary", "why_tests_cant": "depends on what ran before", "anchors": ["c3/libraries/algorithms.py:cmaes"]}
{"id": "C119", "title": "Every population is reported under its label", "statement": "The counts dictionary of the physics simulator has one entry for every basis state, holding the readout of that state.", "quantifier": "every number of levels per qubit and all populations", "why_tests_cant": "all level structures", "anchors": ["c3/qiskit/c3_backend.py:C3QasmSimulator.get_labels", "c3/qiskit/c3_backend.py:C3QasmPhysicsSimulator.run_experiment"]}
{"id": "C120", "title": "The normalized Gaussian has area one", "statement": "The integral of gaussian_sigma over the pulse is one and it vanishes at both ends.", "quantifier": "every pulse length and width", "why_tests_cant": "continuum", "anchors": ["c3/libraries/envelopes.py:gaussian_sigma"]}
{"id": "C121", "title": "Sampled envelopes interpolate their samples", "statement": "pwc_shape and pwc_symmetric take the value of sample k at grid point k, are linear between neighbouring grid points, stay within the range of the samples and are zero outside the grid.", "quantifier": "every grid, samples and time", "why_tests_cant": "continuum of times and all sample lists", "anchors": ["c3/libraries/envelopes.py:pwc_shape", "c3/libraries/envelopes.py:pwc_symmetric"]}
{"id": "C122", "title": "Stretched pulses have a flat plateau", "statement": "pwc_shape_plateau with a width, and slepian_fourier with a rise time, follow the first half of the shape, are constant on the whole plateau, then follow the second half.", "quantifier": "every shape, width and time", "why_tests_cant": "a single time in the continuum is wrong", "anchors": ["c3/libraries/envelopes.py:pwc_shape_plateau", "c3/libraries/envelopes.py:slepian_fourier"]}
{"id": "C123", "title": "Envelopes give one value per sample", "statement": "get_shape_values returns as many values as there are time samples, for every envelope of the library.", "quantifier": "every envelope and number of samples", "why_tests_cant": "all sizes", "anchors": ["c3/signal/pulse.py:Envelope.get_shape_values", "c3/signal/pulse.py:EnvelopeDrag.get_shape_values", "c3/libraries/envelopes.py:pwc_shape", "c3/libraries/envelopes.py:pwc_shape_plateau", "c3/libraries/envelopes.py:cosine_flattop"]}
{"id": "C124", "title": "The potential minimum belongs to the current parameters", "statement": "get_minimum_phi_var returns the minimum of the potential for the current parameter values, whatever was computed before, so frequency and anharmonicity refer to the same minimum.", "quantifier": "every sequence of calls and parameter changes", "why_tests_cant": "depends on what was computed before", "anchors": ["c3/libraries/chip.py:CShuntFluxQubit.get_minimum_phi_var", "c3/libraries/chip.py:CShuntFluxQubit.get_anharmonicity", "c3/libraries/chip.py:Fluxonium.get_potential_function"]}
{"id": "C125", "title": "Amplitude-dependent dephasing is applied", "statement": "With a dephasing strength set on an open system, compute_propagators follows each gate's propagator with the dephasing channel of its average amplitude.", "quantifier": "every open system, strength and gate set", "why_tests_cant": "needs an open system with a dephasing strength", "anchors": ["c3/experiment.py:Experiment.compute_propagators", "c3/generator/devices.py:AWG.get_average_amp"]}
{"id": "C126", "title": "Optimizer proposals rebuild the model", "statement": "After set_parameters_scaled the model has been rebuilt from the new values exactly if the map being optimised names a model parameter.", "quantifier": "every parameter map, optimisation map and sequence of calls", "why_tests_cant": "depends on earlier, also refused, calls", "anchors": ["c3/parametermap.py:ParameterMap.set_parameters_scaled", "c3/parametermap.py:ParameterMap.set_opt_map", "c3/parametermap.py:ParameterMap.check_parameter_type"]}
{"id": "C127", "title": "Configuration files keep their values", "statement": "hjson_decode(hjson_encode(x)) gives back x for every value made of numbers, strings, lists, tuples, dictionaries, complex numbers and arrays.", "quantifier": "every nested value", "why_tests_cant": "unbounded nesting", "anchors": ["c3/c3objs.py:hjson_encode", "c3/c3objs.py:hjson_decode"]}
{"id": "C128", "title": "Gates survive being written and read", "statement": "Instruction.from_dict of an instruction's dictionary gives an instruction with the same components, options, targets, times, ideal gate and timings.", "quantifier": "every instruction", "why_tests_cant": "all combinations of components and options", "anchors": ["c3/signal/gates.py:Instruction.from_dict", "c3/signal/gates.py:Instruction.asdict", "c3/signal/gates.py:Instruction.get_timings"]}
{"id": "C129", "title": "A gate defined by reference is a copy of its original", "statement": "An entry with \"mapto\" in a parameter map file defines a gate equal to the original except for name and targets, with its own ideal unitary.", "quantifier": "every instruction set with references", "why_tests_cant": "all reference structures", "anchors": ["c3/parametermap.py:ParameterMap.fromdict", "c3/signal/gates.py:Instruction.set_name", "c3/signal/gates.py:Instruction.get_key"]}
{"id": "C130", "title": "Devices survive being written and read", "statement": "A device rebuilt from its dictionary by the generator has the class, parameters and settings of the original.", "quantifier": "every device of the library", "why_tests_cant": "every class and every setting", "anchors": ["c3/generator/devices.py:Device.asdict", "c3/generator/devices.py:dev_reg_deco", "c3/generator/devices.py:LONoise", "c3/generator/devices.py:PinkNoise", "c3/generator/devices.py:Crosstalk", "c3/generator/devices.py:CouplingTuning"]}
{"id": "C131", "title": "Models survive being written and read", "statement": "Model.fromdict of a model's dictionary gives a model with the same subsystems, couplings, tasks and settings.", "quantifier": "every model", "why_tests_cant": "all component combinations and settings", "anchors": ["c3/model.py:Model.asdict", "c3/model.py:Model.fromdict"]}
{"id": "C132", "title": "A model contains the components it was given", "statement": "After set_components every given subsystem, coupling and drive is in the model under its own name and connects existing subsystems; otherwise an error is raised.", "quantifier": "every list of components", "why_tests_cant": "all name clashes", "anchors": ["c3/model.py:Model.set_components", "c3/model.py:Model.set_tasks"]}
{"id": "C133", "title": "Timings follow the instruction", "statement": "get_timings reports the start and end that follow from the current parameters of the instruction, whatever was asked before.", "quantifier": "every instruction, component and sequence of questions and parameter changes", "why_tests_cant": "depends on the order of earlier calls", "anchors": ["c3/signal/gates.py:Instruction.get_timings", "c3/signal/gates.py:Instruction.get_full_gate_length", "c3/signal/gates.py:Instruction.get_awg_signal"]}
{"id": "C134", "title": "Every parameter has its own identifier", "statement": "Each parameter of each model component, device and gate is found in the parameter map under its own identifier.", "quantifier": "every model, generator and gate set", "why_tests_cant": "all name clashes", "anchors": ["c3/parametermap.py:ParameterMap.__init__", "c3/parametermap.py:ParameterMap.update_parameters", "c3/parametermap.py:ParameterMap.get_parameter", "c3/signal/gates.py:Instruction.get_optimizable_parameters"]}
{"id": "C135", "title": "Parameters split into optimised and fixed ones", "statement": "get_not_opt_params returns exactly the parameters that the optimisation map does not name.", "quantifier": "every parameter map and optimisation map", "why_tests_cant": "all maps, also with shared identifiers", "anchors": ["c3/parametermap.py:ParameterMap.get_not_opt_params"]}
{"id": "C136", "title": "rk4_unitary returns the gate and its partial propagators", "statement": "The U of rk4_unitary is the time-ordered product of its dUs, each dU is the Runge-Kutta step of its slice, and the steps cover all samples of the gate.", "quantifier": "every list of Hamiltonian samples", "why_tests_cant": "all lengths and non-symmetric Hamiltonians", "anchors": ["c3/libraries/propagation.py:rk4_unitary", "c3/libraries/propagation.py:gen_dus_rk4", "c3/libraries/propagation.py:gen_u_rk4", "c3/libraries/propagation.py:rk4_step"]}
{"id": "C137", "title": "pwc works with every setting of the model", "statement": "pwc returns a propagator for every combination of controllability, open or closed system and excitation limit.", "quantifier": "every combination of settings and every gate", "why_tests_cant": "rarely combined settings", "anchors": ["c3/libraries/propagation.py:pwc", "c3/libraries/propagation.py:tf_batch_propagate", "c3/libraries/propagation.py:tf_propagation_lind", "c3/model.py:Model.get_Hamiltonians"]}
{"id": "C138", "title": "The excitation limit restricts gates to the kept states", "statement": "With an excitation limit the gate is unitary on the kept states, zero elsewhere, and equals the full gate on the kept states if the Hamiltonians do not connect them with the others.", "quantifier": "every list of Hamiltonians, dimension list and limit", "why_tests_cant": "all dimensions and limits", "anchors": ["c3/libraries/propagation.py:pwc", "c3/model.py:Model.cut_excitations", "c3/model.py:Model.blowup_excitations", "c3/model.py:Model.get_Hamiltonian"]}
{"id": "C139", "title": "Trotterised step without fields is the drift propagator", "statement": "pwc_trott_drift with zero control fields gives exp(-i h0 dt).", "quantifier": "every drift and time step", "why_tests_cant": "the function is not covered by tests", "anchors": ["c3/libraries/propagation.py:pwc_trott_drift"]}
{"id": "C140", "title": "tf_expm_dynamic reaches the requested accuracy", "statement": "tf_expm_dynamic ends for every matrix and differs from the exponential by at most the accuracy in every entry.", "quantifier": "every matrix and accuracy", "why_tests_cant": "needs matrices with small powers and large entries", "anchors": ["c3/libraries/propagation.py:tf_expm_dynamic"]}
{"id": "C141", "title": "A pulse is played at the carrier frequency plus its offset", "statement": "The mixed signal of a local oscillator and an AWG is the real part of the complex waveform moved by the carrier; a pulse oscillates at the carrier frequency plus the frequency offset, and quick_setup drives at the qubit frequency with or without a sideband.", "quantifier": "every carrier, offset, phase, envelope and time grid", "why_tests_cant": "all frequencies and signs; a wrong sign shows up only as a wrong gate", "anchors": ["c3/generator/devices.py:LO.process", "c3/generator/devices.py:AWG.create_IQ", "c3/generator/devices.py:Mixer.process", "c3/signal/gates.py:Instruction.quick_setup"]}
{"id": "C142", "title": "Every noise source of the local oscillator acts", "statement": "Each sample of LO carries the amplitude, phase and frequency noise of all sources that are switched on, and only theirs.", "quantifier": "every noise scale, every draw and every regular grid", "why_tests_cant": "random output", "anchors": ["c3/generator/devices.py:LO.process"]}
{"id": "C143", "title": "Pink noise sums fluctuators with rates from once per sample to once per signal", "statement": "Every sample of Pink_Noise is the amplitude times a sum of +-1 fluctuators, and the slowest fluctuator flips about once per signal.", "quantifier": "every sequence of random numbers, amplitude and number of samples", "why_tests_cant": "random output", "anchors": ["c3/generator/devices.py:Pink_Noise.get_noise"]}
{"id": "C144", "title": "Step-response filters act on the time since the start", "statement": "The answer of a step-response filter to a step does not depend on when the instruction starts.", "quantifier": "every step response, grid and starting time", "why_tests_cant": "tests start at zero", "anchors": ["c3/generator/devices.py:StepFuncFilter.process", "c3/generator/devices.py:HighpassExponential.step_response_function", "c3/generator/devices.py:Device.create_ts"]}
{"id": "C145", "title": "The high-pass filter removes constants", "statement": "Away from its ends, a constant signal is removed by HighpassFilter.", "quantifier": "every cutoff, length and constant", "why_tests_cant": "the tests compare with stored output", "anchors": ["c3/generator/devices.py:HighpassFilter.process", "c3/generator/devices.py:HighpassFilter.convolve"]}
{"id": "C146", "title": "Robust optimal control minimizes the mean over the noise", "statement": "The goal of OptimalControlRobust is the mean of the goals over all values of all noise parameters, one noise parameter at a time, at the proposed controls and with the model rebuilt; afterwards the noise parameters have their old values, every evaluation has its own number, and this holds for every algorithm.", "quantifier": "every noise map, proposal, goal function and algorithm", "why_tests_cant": "the test only checks that the optimization runs", "anchors": ["c3/optimizers/optimalcontrol_robust.py:OptimalControlRobust.goal_run_with_grad", "c3/optimizers/optimalcontrol_robust.py:OptimalControlRobust.goal_run", "c3/optimizers/optimizer.py:Optimizer.fct_to_min"]}
{"id": "C147", "title": "A sensitivity sweep varies one parameter at a time", "statement": "In every sweep of Sensitivity the swept parameter has the value of the point and all other parameters have the values from before the analysis.", "quantifier": "every list of sweeps, points and data sets", "why_tests_cant": "the test sweeps two parameters without looking at the values of the others", "anchors": ["c3/optimizers/sensitivity.py:Sensitivity.sensitivity", "c3/optimizers/modellearning.py:ModelLearning._one_par_sim_vals"]}
{"id": "C148", "title": "Model learning ends with the best parameters", "statement": "The parameters in the map after learn_model, which are used for the validation, are those of the best evaluation.", "quantifier": "every goal function and sequence of proposals", "why_tests_cant": "algorithms mostly end near the best point", "anchors": ["c3/optimizers/modellearning.py:ModelLearning.learn_model", "c3/optimizers/modellearning.py:ModelLearning.confirm"]}
{"id": "C149", "title": "A data set is simulated with the proposed model and its own gate parameters", "statement": "For every data set the simulation sees the model parameters proposed by the optimizer, the gate parameters stored in the data set, everything else unchanged, and a model that was rebuilt from these values.", "quantifier": "every proposal and data set", "why_tests_cant": "only the combined goal is visible", "anchors": ["c3/optimizers/modellearning.py:ModelLearning._one_par_sim_vals"]}
{"id": "C150", "title": "The Hamiltonians have the matrix elements of levels, couplings and drives", "statement": "In the product basis the drift Hamiltonian has the Duffing energies of all elements on the diagonal and the couplings only between states that differ in the two coupled elements; a control Hamiltonian changes only the levels of the connected elements, with the matrix elements of its drive operator.", "quantifier": "every list of elements, couplings, lines and parameter values", "why_tests_cant": "tests compare a few matrices of two-element chips", "anchors": ["c3/model.py:Model.update_Hamiltonians", "c3/model.py:Model.update_init_state", "c3/libraries/chip.py:Qubit.get_Hamiltonian", "c3/libraries/chip.py:Coupling.get_Hamiltonian", "c3/libraries/hamiltonians.py:int_XX"]}
{"id": "C151", "title": "Relaxation and excitation are in detailed balance", "statement": "At a temperature T the rate from a level up to the next is the rate downwards times exp(-E/kT) with E the spacing of the two levels in the drift Hamiltonian; the rate downwards from level n+1 is (n+1)/T1.", "quantifier": "every chip, element, pair of neighbouring levels, T1 and temperature", "why_tests_cant": "needs the stationary state of an open system; tests only compare stored numbers", "anchors": ["c3/libraries/chip.py:Qubit.get_Lindbladian", "c3/libraries/chip.py:Transmon.get_Lindbladian"]}
{"id": "C152", "title": "T2* is the decay time of the coherence", "statement": "With a dephasing time only, the populations stay and the coherence of two states decays at the rate 1/T2* times the squared difference of the levels of the element.", "quantifier": "every chip, state, dephasing time", "why_tests_cant": "tests only compare stored numbers", "anchors": ["c3/libraries/chip.py:Qubit.get_Lindbladian", "c3/libraries/chip.py:Qubit.init_Ls"]}
{"id": "C153", "title": "The expanded transmon is the sixth-order expansion of its circuit", "statement": "The Hamiltonian of TransmonExpanded is 4 E_C n^2 - E_J cos(phi) with the cosine expanded to sixth order and E_J tuned by the flux, up to a constant energy; it is Hermitian and defined at every flux.", "quantifier": "every E_C, E_J, flux and pair of ladder operators", "why_tests_cant": "the test only compares two frequencies with those of a Duffing transmon", "anchors": ["c3/libraries/chip.py:TransmonExpanded.get_prefactors", "c3/libraries/chip.py:TransmonExpanded.get_Hs", "c3/libraries/chip.py:TransmonExpanded.get_Hamiltonian"]}
{"id": "C154", "title": "The expanded transmon is fitted to the requested frequencies on its own levels", "statement": "energies_from_frequencies starts at energies that have the requested frequency and anharmonicity to first order and minimizes a cost that is zero exactly at the requested transitions of the element with all its levels.", "quantifier": "every chip, number of levels, frequency and anharmonicity", "why_tests_cant": "the test has one element with five levels and a loose tolerance", "anchors": ["c3/libraries/chip.py:TransmonExpanded.energies_from_frequencies", "c3/libraries/chip.py:TransmonExpanded.init_Hs"]}
{"id": "C155", "title": "The flux qubit with cosines has a Hermitian Hamiltonian", "statement": "The Hamiltonian of CShuntFluxQubitCos is Hermitian.", "quantifier": "every set of parameters and number of levels", "why_tests_cant": "there is no test for this class", "anchors": ["c3/libraries/chip.py:CShuntFluxQubitCos.get_Hamiltonian", "c3/libraries/chip.py:CShuntFluxQubitCos.cosm", "c3/libraries/chip.py:CShuntFluxQubitCos.get_n_variable"]}
{"id": "C156", "title": "Frequency and anharmonicity of the flux qubit are those of its circuit", "statement": "The level energies of CShuntFluxQubit are the diagonal of 4 E_C n^2 + V(phi) expanded to fourth order around the point at which the potential is evaluated.", "quantifier": "every set of parameters, point and level", "why_tests_cant": "tests compare stored numbers", "anchors": ["c3/libraries/chip.py:CShuntFluxQubit.get_frequency", "c3/libraries/chip.py:CShuntFluxQubit.get_anharmonicity", "c3/libraries/chip.py:CShuntFluxQubit.get_Hamiltonian"]}
{"id": "C157", "title": "The DRAG quadrature is the derivative of the envelope", "statement": "EnvelopeDrag returns the masked envelope in phase and minus delta times its derivative per sample in quadrature, at every sample, with and without use_t_before.", "quantifier": "every differentiable shape, mask, delta and list of sample times", "why_tests_cant": "tests plot DRAG pulses for the plain envelope only", "anchors": ["c3/signal/pulse.py:EnvelopeDrag.get_shape_values", "c3/signal/pulse.py:Envelope._get_shape_values_before", "c3/signal/pulse.py:Envelope._get_shape_values_just"]}
{"id": "C158", "title": "Envelopes with a fixed width follow the length and leave the parameters alone", "statement": "gaussian, drag and flattop_risefall_1ns have the values of the general envelopes with width t_final/6, t_final/4 and a rise of one nanosecond; evaluating them changes no parameter object.", "quantifier": "every set of parameter objects and every time", "why_tests_cant": "tests only look at the values", "anchors": ["c3/libraries/envelopes.py:gaussian", "c3/libraries/envelopes.py:drag", "c3/libraries/envelopes.py:flattop_risefall_1ns"]}
{"id": "C159", "title": "A delta pulse is one at the sample nearest to each given time", "statement": "delta_pulse is one at the sample nearest to each of the given times, one sample per time, and zero elsewhere.", "quantifier": "every list of times and samples", "why_tests_cant": "there is no test of ties or of fine sampling", "anchors": ["c3/libraries/envelopes.py:delta_pulse"]}
{"id": "C160", "title": "Fourier pulses are bounded, linear sums", "statement": "fourier_sin and fourier_cos are linear in the amplitudes, bounded by the sum of their absolute values, the cosine pulse is even and equal to the sine pulse with phases pi/2.", "quantifier": "every list of amplitudes, frequencies, phases and every time", "why_tests_cant": "tests compare one stored pulse", "anchors": ["c3/libraries/envelopes.py:fourier_sin", "c3/libraries/envelopes.py:fourier_cos"]}
{"id": "C161", "title": "Counts describe the state at the measurement", "statement": "A circuit run on the Qiskit backend is evaluated gate by gate in order, leaving out barriers; a measurement reports counts of the state at its place, and every circuit on few enough qubits with known gates returns a result.", "quantifier": "every circuit, device and state of the backend", "why_tests_cant": "tests run a few circuits that end in a measurement or have none", "anchors": ["c3/qiskit/c3_backend.py:C3QasmSimulator.sanitize_instructions", "c3/qiskit/c3_backend.py:C3QasmSimulator.locate_measurements", "c3/qiskit/c3_backend.py:C3QasmPhysicsSimulator.run_experiment"]}
{"id": "C162", "title": "Parameter updates through Qiskit act where they should", "statement": "Every circuit is evaluated with propagators of the parameters in force; parameters passed to run() are set once, override updates by gates, and are not reused; an update gate only concerns its own circuit.", "quantifier": "every history of calls, options, circuits and devices", "why_tests_cant": "tests update once and look at one circuit", "anchors": ["c3/qiskit/c3_backend.py:C3QasmSimulator.run", "c3/qiskit/c3_backend.py:C3QasmSimulator._run_job", "c3/qiskit/c3_backend.py:C3QasmPhysicsSimulator.run_experiment"]}
{"id": "C163", "title": "Qiskit rotation gates have the library matrices", "statement": "Each of the nine rotation gates for Qiskit has the matrix of the gate of the same name in the gate table.", "quantifier": "all nine gates", "why_tests_cant": "tests compare floating-point matrices for some gates only", "anchors": ["c3/qiskit/c3_gates.py:RX90pGate", "c3/qiskit/c3_gates.py:RZpGate", "c3/libraries/constants.py:GATES"]}
{"id": "C164", "title": "In controlled gates the first target controls", "statement": "crxp, crzp, cz and cx of the gate table do nothing if the first target is in state zero, and apply the named gate to the second target if it is one.", "quantifier": "the controlled gates of the table", "why_tests_cant": "no test looks at the order of the qubits in the table", "anchors": ["c3/libraries/constants.py:GATES"]}
{"id": "C165", "title": "Likelihood estimators return the log-likelihood of the counts", "statement": "The binomial and multinomial estimators return minus the mean logarithm of the probability of the measured counts given the simulated ones; for two outcomes they agree.", "quantifier": "all data sets and numbers of shots", "why_tests_cant": "tests compare a few numbers with stored ones", "anchors": ["c3/libraries/estimators.py:neg_loglkh_binom", "c3/libraries/estimators.py:neg_loglkh_multinom"]}
{"id": "C166", "title": "Normalised likelihoods are smallest, and zero, at a perfect match", "statement": "The normalised estimators are zero if the simulation matches the measured frequencies and positive otherwise.", "quantifier": "all data sets and numbers of shots", "why_tests_cant": "tests only compare stored numbers", "anchors": ["c3/libraries/estimators.py:neg_loglkh_binom_norm", "c3/libraries/estimators.py:neg_loglkh_multinom_norm"]}
{"id": "C167", "title": "A configuration file runs the optimizer it describes", "statement": "run_cfg builds the experiment and the optimizer named in the configuration, loads the initial points and starts the optimization; an unknown type raises; the same configuration can be run again.", "quantifier": "every configuration dictionary", "why_tests_cant": "tests run three example files once", "anchors": ["c3/main.py:run_cfg"]}
{"id": "C168", "title": "A virtual Z gate is a Z rotation of its qubit", "statement": "In a QASM sequence VZ multiplies the states by the phase of a Z rotation of its qubit, whatever the others do, in closed and open systems; it leaves the populations unchanged and angles add.", "quantifier": "all dimensions, targets, angles, states and sequences", "why_tests_cant": "tests evaluate one sequence of two-level qubits", "anchors": ["c3/experiment.py:Experiment.evaluate_qasm", "c3/experiment.py:Experiment.lookup_gate", "c3/experiment.py:Experiment.get_VZ"]}
{"id": "C169", "title": "Experiments survive being written and read", "statement": "An experiment written with asdict/write_config and read with from_dict/read_config has the same parts, settings, resolution, method, gates and sequence format; a dictionary can be read twice.", "quantifier": "every experiment and receiving experiment", "why_tests_cant": "tests compare the text of one example", "anchors": ["c3/experiment.py:Experiment.asdict", "c3/experiment.py:Experiment.from_dict"]}
{"id": "C170", "title": "The quick setup drives each qubit at its frequency", "statement": "The quick setup makes one instruction for each configured gate, on the lines of its qubits and at their frequencies, and finds the model and generator files next to the setup file or at their absolute place.", "quantifier": "every setup and device", "why_tests_cant": "tests load one setup", "anchors": ["c3/experiment.py:Experiment.quick_setup", "c3/experiment.py:Experiment.load_quick_setup", "c3/signal/gates.py:Instruction.quick_setup"]}
{"id": "C171", "title": "Figures of merit of a set are means over the gates", "statement": "unitary_infid_set, average_infid_set, state_transfer_infid_set and lindbladian_unitary_infid_set are the arithmetic mean of the infidelities of the gates, average_infid_seq is one minus the product of their fidelities; they raise exactly if one gate does (or, for the mean, if there is none), lie in [0,1] and vanish exactly if all gates are perfect.", "quantifier": "every set of gates, index and register", "why_tests_cant": "tests use one set", "anchors": ["c3/libraries/fidelities.py:unitary_infid_set", "c3/libraries/fidelities.py:average_infid_set", "c3/libraries/fidelities.py:state_transfer_infid_set", "c3/libraries/fidelities.py:lindbladian_unitary_infid_set", "c3/libraries/fidelities.py:average_infid_seq"]}
{"id": "C172", "title": "All ways of reading a quantity agree", "statement": "A quantity read as a number, list, array, by index, by iteration or in a comparison shows the same entries; its length is the number of keys it accepts.", "quantifier": "every quantity, shape, unit and key", "why_tests_cant": "tests read scalars of one unit", "anchors": ["c3/c3objs.py:Quantity.tolist", "c3/c3objs.py:Quantity.__lt__", "c3/c3objs.py:Quantity.__array__", "c3/c3objs.py:Quantity.__len__", "c3/c3objs.py:Quantity.__getitem__", "c3/c3objs.py:Quantity.__float__"]}
{"id": "C173", "title": "Reports on the optimised parameters line up", "statement": "get_opt_units, get_opt_limits, get_parameter_dict and str_parameters describe exactly the parameters of get_parameters, in that order, and fail exactly when it does; get_opt_map writes identifiers as strings in place without changing which parameters are meant; the opt_map in use is the one that was checked.", "quantifier": "every parameter map and opt_map", "why_tests_cant": "tests look at one map", "anchors": ["c3/parametermap.py:ParameterMap.get_opt_map", "c3/parametermap.py:ParameterMap.set_opt_map", "c3/parametermap.py:ParameterMap.get_opt_units", "c3/parametermap.py:ParameterMap.get_opt_limits", "c3/parametermap.py:ParameterMap.get_parameter_dict", "c3/parametermap.py:ParameterMap.str_parameters"]}
{"id": "C174", "title": "Reported qubit frequencies are transition frequencies of the model", "statement": "get_qubit_freqs returns for every subsystem the energy of its first dressed excited state above the ground state, over 2 pi, of the current model.", "quantifier": "every model with well separated dressed states", "why_tests_cant": "tests compare one two-qubit chip", "anchors": ["c3/model.py:Model.get_qubit_freqs", "c3/model.py:Model.set_dressed", "c3/model.py:Model.update_dressed"]}
{"id": "C175", "title": "Operators in an arbitrary basis are the conjugated operators", "statement": "Model_basis_change with a unitary U expresses every operator as U^dagger H U, ordered or not; without a basis nothing changes.", "quantifier": "every unitary and operator", "why_tests_cant": "tests use one basis", "anchors": ["c3/model.py:Model_basis_change.__init__", "c3/model.py:Model_basis_change.update_drift_eigen"]}
{"id": "C176", "title": "Sparse Hamiltonians are the full ones with high excitations removed", "statement": "get_sparse_Hamiltonian and get_sparse_Hamiltonians keep exactly the entries between states within the excitation limit, whatever limits were set before.", "quantifier": "all dimensions, limits and histories of limits", "why_tests_cant": "tests use one limit", "anchors": ["c3/model.py:Model.get_sparse_Hamiltonian", "c3/model.py:Model.get_sparse_Hamiltonians", "c3/model.py:Model.set_max_excitations"]}
{"id": "C177", "title": "A registered goal function can be optimised by name", "statement": "Every function in the registry of fidelities can be chosen by its name, for closed and open systems, and evaluated in an optimization, given suitable additional arguments.", "quantifier": "every name, every set of additional arguments, with and without ODE solver", "why_tests_cant": "tests use one goal function each", "anchors": ["c3/optimizers/optimalcontrol.py:OptimalControl.set_fid_func", "c3/optimizers/optimalcontrol.py:OptimalControl.goal_run", "c3/optimizers/optimalcontrol.py:OptimalControl.goal_run_ode", "c3/optimizers/optimalcontrol.py:OptimalControl.goal_run_ode_only_final", "c3/libraries/fidelities.py:fid_reg_deco"]}
{"id": "C178", "title": "Callback figures of merit are evaluated and recorded", "statement": "The figures of merit given as callback_fids are evaluated in every evaluation and stored for reference.", "quantifier": "every list of callbacks and every run", "why_tests_cant": "no test looks for the recorded values", "anchors": ["c3/optimizers/optimalcontrol.py:OptimalControl.set_callback_fids", "c3/optimizers/optimalcontrol.py:OptimalControl.goal_run"]}
{"id": "C179", "title": "Evaluations are numbered consecutively", "statement": "The log numbers the evaluations of a run one after the other, and the goal function is told the number.", "quantifier": "every optimizer and every run", "why_tests_cant": "tests do not read the numbers", "anchors": ["c3/optimizers/optimizer.py:Optimizer.log_parameters", "c3/optimizers/optimalcontrol.py:OptimalControl.goal_run", "c3/optimizers/optimalcontrol_robust.py:OptimalControlRobust.goal_run", "c3/optimizers/calibration.py:Calibration.goal_run", "c3/optimizers/modellearning.py:ModelLearning.goal_run"]}
{"id": "C180", "title": "The TensorBoard log contains the improvements of a run", "statement": "TensorBoardLogger writes every evaluation that is at least as good as all before, completely, under the names of the parameters and at its own step.", "quantifier": "every run, number and shape of parameters", "why_tests_cant": "tests run one robust optimization and do not read the log", "anchors": ["c3/optimizers/optimizer.py:TensorBoardLogger.log_parameters", "c3/optimizers/optimizer.py:TensorBoardLogger.write_params"]}
{"id": "C181", "title": "The log table shows each parameter with its own value, gradient and unit", "statement": "show_table prints for every group the value, gradient and unit that belong to it, and the goal and time of the log, also when watching.", "quantifier": "every log file", "why_tests_cant": "no test", "anchors": ["c3/utils/log_reader.py:show_table"]}
{"id": "C182", "title": "An adaptive scan includes the requested points and covers the bounds", "statement": "adaptive_scan evaluates all probes and, if asked, the initial point, and samples the smallest interval that contains them and the bounds.", "quantifier": "every list of probes, bounds and initial point", "why_tests_cant": "no test", "anchors": ["c3/libraries/algorithms.py:adaptive_scan"]}
{"id": "C183", "title": "tf_sgd is gradient descent with momentum", "statement": "tf_sgd performs maxiters steps of gradient descent with momentum, keeps stationary points, converges on parabolas and returns its best point.", "quantifier": "every goal function with gradient, starting point, learning rate and momentum", "why_tests_cant": "tests run one example", "anchors": ["c3/libraries/algorithms.py:tf_sgd"]}
{"id": "C184", "title": "Both stages of cma_pre_lbfgs get their options", "statement": "Each stage of cma_pre_lbfgs sees its own options and otherwise the shared ones, in every run; the second stage starts at the best point of the first.", "quantifier": "every set of options and repeated runs", "why_tests_cant": "tests run it once", "anchors": ["c3/libraries/algorithms.py:cma_pre_lbfgs"]}
{"id": "C185", "title": "Every algorithm of the library can be selected and started", "statement": "Each algorithm can be chosen by name and called by the optimizers, and its limits on evaluations are respected.", "quantifier": "every algorithm", "why_tests_cant": "tests use some of them", "anchors": ["c3/libraries/algorithms.py:algo_reg_deco", "c3/libraries/algorithms.py:oneplusone", "c3/libraries/algorithms.py:lbfgs", "c3/libraries/algorithms.py:lbfgs_grad_free", "c3/optimizers/optimalcontrol.py:OptimalControl.optimize_controls"]}
{"id": "C186", "title": "A new log directory is used and the old one cleaned up", "statement": "After replace_logdir all logs go to the new directory, the link and the empty directory of the old log are removed, and nothing else changes.", "quantifier": "every file system, directory name and list of loggers", "why_tests_cant": "no test", "anchors": ["c3/optimizers/optimizer.py:Optimizer.replace_logdir", "c3/optimizers/optimizer.py:Optimizer.start_log", "c3/optimizers/optimalcontrol.py:OptimalControl.optimize_controls"]}
{"id": "C187", "title": "Every run gets a new directory", "statement": "log_setup returns a directory that did not exist, lets recent point to it and leaves everything else alone.", "quantifier": "every file system, run name and sequence of times", "why_tests_cant": "tests use temporary directories", "anchors": ["c3/utils/utils.py:log_setup", "c3/utils/utils.py:replace_symlink"]}
{"id": "C188", "title": "Stored propagators are those of each evaluation", "statement": "With store_unitaries every evaluation gets a folder of its own with the propagators of that evaluation as pickle and text.", "quantifier": "every run and gate set", "why_tests_cant": "no test", "anchors": ["c3/experiment.py:Experiment.store_Udict", "c3/experiment.py:Experiment.set_enable_store_unitaries", "c3/optimizers/optimizer.py:Optimizer.log_parameters"]}
{"id": "C189", "title": "Every completed evaluation of a calibration is in a data set that can be learned from", "statement": "After a calibration the data set holds one entry for every measurement, in order and with the parameters measured, and model learning can read it.", "quantifier": "every sequence of proposals and measurement results, interrupts and exceptions", "why_tests_cant": "tests run one calibration and do not read the data set back", "anchors": ["c3/optimizers/calibration.py:Calibration.goal_run", "c3/optimizers/calibration.py:Calibration.log_pickle", "c3/optimizers/calibration.py:Calibration.optimize_controls", "c3/optimizers/modellearning.py:ModelLearning.read_data"]}
{"id": "C190", "title": "A calibration ends at its best point", "statement": "After a calibration the experiment is set to the parameters with the lowest goal of all evaluations.", "quantifier": "every sequence of proposals and measurement results, repeated runs", "why_tests_cant": "tests run one calibration once", "anchors": ["c3/optimizers/calibration.py:Calibration.optimize_controls", "c3/optimizers/calibration.py:Calibration.goal_run", "c3/optimizers/optimizer.py:Optimizer.log_parameters"]}
{"id": "C191", "title": "The recorded noise is the noise in the signal", "statement": "The `noise` entries of a generated signal are the difference between the noisy signal and the signal of the same chain with all noise amplitudes set to zero; noise of zero amplitude changes nothing.", "quantifier": "every chain of devices, noise draw, amplitude and signal", "why_tests_cant": "noise is random, tests look at its variance for one device", "anchors": ["c3/generator/devices.py:Additive_Noise.process", "c3/generator/devices.py:Additive_Noise.get_noise", "c3/generator/devices.py:DC_Noise.get_noise", "c3/generator/devices.py:LONoise.proces", "c3/generator/devices.py:DC_Offset.process", "c3/generator/generator.py:Generator.generate_signals"]}
{"id": "C192", "title": "Linear flux tuning returns the frequency at the applied flux", "statement": "A linear flux tuning device with its documented parameters returns, for every signal, a frequency between the lowest and the highest frequency of the SQUID, shifted by its bias.", "quantifier": "every set of parameters and signal", "why_tests_cant": "no test calls `FluxTuningLinear.frequency`", "anchors": ["c3/generator/devices.py:FluxTuningLinear.__init__", "c3/generator/devices.py:FluxTuningLinear.frequency"]}
{"id": "C193", "title": "The deprecated response filter is a causal, normalised filter on its own time grid", "statement": "The deprecated response filter is a causal convolution with unit gain that never amplifies, returns as many samples as times, and agrees with the filter that replaces it.", "quantifier": "every rise time, resolution, window and signal", "why_tests_cant": "tests compare one pulse with stored numbers", "anchors": ["c3/generator/devices.py:Response.process", "c3/utils/tf_utils.py:tf_convolve_legacy"]}
{"id": "C194", "title": "An operation in QASM format runs the instruction with its name, targets and parameters", "statement": "An operation {name, qubits, params} evaluates with the propagator of the instruction of this name, these targets and these parameters, or raises if there is none; the operation an instruction writes out itself is such an operation.", "quantifier": "every list of instructions, operation and selection of gates", "why_tests_cant": "tests use a few instructions with simple names and lists as targets", "anchors": ["c3/experiment.py:Experiment.lookup_gate", "c3/experiment.py:Experiment.evaluate_qasm", "c3/experiment.py:Experiment.compute_propagators", "c3/signal/gates.py:Instruction.get_key", "c3/signal/gates.py:Instruction.as_openqasm", "c3/parametermap.py:ParameterMap.__init__"]}
{"id": "C195", "title": "The perfect gate set can replace the simulated one", "statement": "get_perfect_gates returns exactly the ideal gates of the requested instructions, and sequences can be evaluated with them in place of the propagators.", "quantifier": "every list of instructions, selection, register and sequence", "why_tests_cant": "tests check the shape for one register of qubits", "anchors": ["c3/experiment.py:Experiment.get_perfect_gates", "c3/signal/gates.py:Instruction.get_ideal_gate"]}
{"id": "C196", "title": "Frame and dynamics of a model can be switched at any time", "statement": "After any sequence of parameter changes, changes of the frame and switches between closed and open dynamics, the Hamiltonians and collapse operators of the model belong to its present parameters and settings.", "quantifier": "every model, every sequence of actions, including ones that raise", "why_tests_cant": "tests switch once for one model with decay times", "anchors": ["c3/model.py:Model.set_lindbladian", "c3/model.py:Model.set_dressed", "c3/model.py:Model.update_model", "c3/model.py:Model.update_Lindbladians", "c3/model.py:Model.update_dressed", "c3/libraries/chip.py:Resonator.get_Lindbladian"]}
{"id": "C197", "title": "Hamiltonians, times and step size handed to the propagation belong together", "statement": "The Hamiltonians computed from the signals of the channels are one per sample, each is the drift plus the signals at that sample times their control Hamiltonians, the returned times are those of the Hamiltonians, the step size is their distance, and channels that were not sampled at the same times are refused.", "quantifier": "every set of channels, signals, time grid and number of samples per step", "why_tests_cant": "tests use generated signals, which share one grid", "anchors": ["c3/libraries/propagation.py:get_hs_of_t_ts", "c3/libraries/propagation.py:_get_hs_of_t_ts_controlled", "c3/libraries/propagation.py:_get_hs_of_t_ts", "c3/libraries/propagation.py:sum_h0_hks", "c3/libraries/propagation.py:pwc"]}
{"id": "C198", "title": "The printed form of a quantity shows its value", "statement": "Printing a quantity gives one number per entry, in order, with the unit of the quantity; the printed number with its prefix is the value up to rounding in the last printed digit, including its sign.", "quantifier": "every unit, every list of values", "why_tests_cant": "tests print a few values inside the table of prefixes", "anchors": ["c3/utils/utils.py:num3str", "c3/utils/utils.py:eng_num", "c3/c3objs.py:Quantity.__str__", "c3/c3objs.py:Quantity.__repr__"]}
{"id": "C199", "title": "Whatever the parameters of the chip and the pulses, an experiment reports probabilities", "statement": "With the default propagation, after any history of computing propagators in which parameters, pulses, selections and settings change and calls may raise, evaluating any sequences of available gates from any initial state gives one probability distribution per sequence, for closed and open systems, with and without dressed basis and frame rotation; readout of such a distribution gives a distribution again. A gate has a propagator exactly if it has samples, on drive lines of the chip.", "quantifier": "every chip, parameter values, pulses, batch size, frame, history, list of sequences and initial state", "why_tests_cant": "end-to-end tests check numbers for one device and a few parameter values", "anchors": ["c3/experiment.py:compute_propagators", "c3/experiment.py:evaluate", "c3/experiment.py:process", "c3/experiment.py:populations", "c3/libraries/propagation.py:pwc", "c3/model.py:get_Hamiltonians", "c3/model.py:get_Frame_Rotation"]}
{"id": "C200", "title": "An evolution strategy returns the best point it was told about", "statement": "`cmaes` and `gcmaes` return a point they have told the strategy about, with the lowest of all values told. Without noise, the goal at the result of `cmaes` is the lowest of all points evaluated, and with `init_point` not above the goal at the initial point; every asked point is evaluated once. With a local search that never goes up, the result of `gcmaes` is at least as good as every asked point and every local result.", "quantifier": "every strategy, goal function, noise, local search, option and number of generations", "why_tests_cant": "tests run a few generations with a fixed seed and compare the final value with a threshold", "anchors": ["c3/libraries/algorithms.py:cmaes", "c3/libraries/algorithms.py:gcmaes"]}
{"id": "C201", "title": "A chip element has the parameters it was constructed with", "statement": "A quantity given by name to the constructor of a chip element becomes its parameter of that name, also if its value is zero and whatever the dictionary of parameters contains; all other parameters come from the dictionary, which is left alone; the element can then be written, and elements are independent of each other.", "quantifier": "every element class, set of named arguments and dictionary of parameters", "why_tests_cant": "tests construct each element once with valid named arguments", "anchors": ["c3/libraries/chip.py:Qubit.__init__", "c3/libraries/chip.py:Transmon.__init__", "c3/libraries/chip.py:CShuntFluxQubitCos.__init__", "c3/libraries/chip.py:CShuntFluxQubit.__init__", "c3/libraries/chip.py:Fluxonium.__init__", "c3/libraries/chip.py:SNAIL.__init__", "c3/libraries/chip.py:Coupling.__init__", "c3/c3objs.py:C3obj.__init__"]}
{"id": "C202", "title": "A finer resolution converges to the Schrödinger and to the master equation", "statement": "For control signals with Lipschitz continuous derivative, the gate computed from N samples differs from the solution of the Schrödinger equation by at most a constant over N squared, and the superoperator takes every initial density matrix to the solution of the master equation up to a constant over N squared. The second order depends on the samples being taken at the slice centres.", "quantifier": "all drift and drive Hamiltonians, collapse operators, smooth signals, times, batch sizes and numbers of samples", "why_tests_cant": "tests compare propagators at one or two resolutions with each other or with stored numbers", "anchors": ["c3/libraries/propagation.py:pwc", "c3/libraries/propagation.py:tf_propagation_vectorized", "c3/libraries/propagation.py:tf_propagation_lind", "c3/generator/devices.py:Device.create_ts"]}
{"id": "C203", "title": "The Hamiltonians given to the Runge-Kutta solvers lie on the lines between the samples", "statement": "For channels on one uniform grid the j-th Hamiltonian of step i is the drift plus the control Hamiltonians times the signals on the straight line between the samples i and i+1, at the fraction that the solver's node prescribes; after the last sample the last line is continued. Both solvers make one step per sample, of the size of the grid spacing, and the states returned belong to the times returned.", "quantifier": "all drifts, control Hamiltonians, numbers of channels, samples and solvers", "why_tests_cant": "tests compare the final state with stored numbers", "anchors": ["c3/model.py:Model.Hs_of_t", "c3/model.py:Model.calculate_sum_Hs", "c3/libraries/propagation.py:ode_solver", "c3/libraries/propagation.py:ode_solver_final_state", "c3/utils/tf_utils.py:interpolate_signal"]}
{"id": "C204", "title": "The Runge-Kutta solvers converge to the Schrödinger, von Neumann and master equation", "statement": "For Lipschitz continuous control signals the final state that ode_solver_final_state computes from N samples differs from the solution of the differential equation by at most a constant over N, and with smooth signals by at most a constant over N squared.", "quantifier": "all Hamiltonians, collapse operators, signals, times and numbers of samples; the solvers rk4, rk38 and rk5", "why_tests_cant": "tests run the solvers at one resolution and compare with stored numbers", "anchors": ["c3/libraries/propagation.py:ode_solver_final_state", "c3/libraries/propagation.py:rk4", "c3/libraries/propagation.py:rk38", "c3/libraries/propagation.py:rk5", "c3/libraries/propagation.py:schrodinger", "c3/libraries/propagation.py:von_neumann", "c3/libraries/propagation.py:lindblad", "c3/generator/devices.py:Device.create_ts"]}
{"id": "C205", "title": "rk4, rk38 and rk5 are of fourth order", "statement": "With the Hamiltonian taken at the times of the nodes of every step and signals with four continuous derivatives, the final state differs from the solution of the Schrödinger, von Neumann or master equation by at most a constant over the fourth power of the number of steps, also when the Hamiltonians at different times do not commute.", "quantifier": "all Hamiltonians, collapse operators, signals and numbers of steps; the solvers rk4, rk38 and rk5", "why_tests_cant": "an error in one coefficient or node lowers the order and changes stored results only slightly", "anchors": ["c3/libraries/propagation.py:rk4", "c3/libraries/propagation.py:rk38", "c3/libraries/propagation.py:rk5", "c3/libraries/propagation.py:schrodinger", "c3/libraries/propagation.py:von_neumann", "c3/libraries/propagation.py:lindblad", "c3/libraries/propagation.py:ode_solver_final_state"]}
{"id": "C206", "title": "average_infid is one minus the probability to find the wanted state, averaged over all input states", "statement": "For a unitary ideal gate on the computational qubits and any propagator, average_infid equals one minus the probability that the propagated state is found in the state that the ideal gate prepares, averaged uniformly over all pure states of the computational space.", "quantifier": "all propagators, dimensions, qubits, ideal gates and uniform measures", "why_tests_cant": "an average over infinitely many states; tests compare with stored numbers for a few gates", "anchors": ["c3/libraries/fidelities.py:average_infid", "c3/libraries/fidelities.py:unitary_infid", "c3/utils/tf_utils.py:tf_project_to_comp"]}
{"id": "C207", "title": "The chi matrix describes the process in the Pauli basis", "statement": "pauli_basis holds an orthogonal basis of Pauli words for any number of qubits, and the matrix that tf_choi_to_chi makes from the Choi matrix of a process is the matrix of its coefficients in this basis: the process is the sum of chi[k,l] times P_k rho P_l, over the square of the dimension. It is positive, its trace is fixed for trace preserving processes, and for a Pauli channel it is diagonal with the probabilities.", "quantifier": "all processes given by any Kraus operators on any number of qubits", "why_tests_cant": "tests check one process with symmetric coefficients", "anchors": ["c3/utils/tf_utils.py:super_to_choi", "c3/utils/tf_utils.py:tf_choi_to_chi", "c3/utils/qt_utils.py:pauli_basis"]}
{"id": "C208", "title": "Basis states and the six states on the axes", "statement": "basis gives the unit vector of the level, xy_basis gives for every number of levels the states on the axes: normalised, eigenstates of the Pauli matrix of the axis with the sign of their name, orthogonal within an axis and with overlap one half between axes. The average over the six states equals the average over all states of a qubit.", "quantifier": "all numbers of levels, names and operators", "why_tests_cant": "tests look at single entries of single states", "anchors": ["c3/utils/qt_utils.py:basis", "c3/utils/qt_utils.py:xy_basis", "c3/utils/qt_utils.py:expand_dims"]}
{"id": "C209", "title": "A resonant pulse turns the qubit by the area under its envelope, about the axis given by its phase", "statement": "On a chip of uncoupled anharmonic qubits with one drive line each, compute_propagators with pwc and frame rotation gives for simultaneous pulses on resonance the product of one rotation per qubit. The angle is the integral of the amplitude in angular frequency, the axis is cos(phase) X + sin(phase) Y. The error of every entry that starts or ends in the computational states is at most an explicit constant over the smallest detuning (anharmonicity, or twice the frequency), plus a term that falls with the square of the resolution. The gates of the table of constants are the rotations by pi and pi/2 with phase 0, pi and plus or minus pi/2.", "quantifier": "all numbers of qubits and levels, frequencies, anharmonicities, phases, smooth envelopes, durations, resolutions and batch sizes", "why_tests_cant": "tests compare single gates on single chips with stored numbers; the statement is about a limit", "anchors": ["c3/experiment.py:Experiment.compute_propagators", "c3/libraries/propagation.py:pwc", "c3/model.py:Model.get_Frame_Rotation", "c3/libraries/hamiltonians.py:x_drive", "c3/libraries/constants.py:GATES"]}
{"id": "C210", "title": "A provider hands out its backends by name, options are stored or refused as a whole, jobs are finished when returned", "statement": "C3Provider() succeeds exactly if every backend class can be instantiated. backends() lists every backend once. backends(name) and get_backend(name) give the one backend of this name (the same object each time), or raise QiskitBackendNotFoundError. backends(filters=f) lists only those that f accepts. Setting options refuses unknown names with AttributeError without storing anything; otherwise to_dict() gives every option the value passed last, or the one it had. A job exists exactly if the computation did not raise, its result is there at once and its status is DONE.", "quantifier": "all lists of backend classes, names, filters, option values and computations", "why_tests_cant": "tests use the one existing backend; filters are never tested", "anchors": ["c3/qiskit/c3_provider.py:C3Provider.backends", "c3/qiskit/c3_provider.py:C3Provider._verify_backends", "c3/qiskit/c3_options.py:C3Options.to_dict", "c3/qiskit/c3_job.py:C3Job.result", "c3/qiskit/c3_backend.py:C3QasmSimulator._set_options"]}
{"id": "C211", "title": "tf_kron is the Kronecker product, matrix by matrix for stacks; superoperators multiply from their side", "statement": "tf_kron(A, B) gives the Kronecker product (A entry times B block) for matrices, for stacks of matrices of equal length entry by entry, and for a stack and a single matrix; stacks of different lengths raise. It can be applied with any batch dimensions. tf_spre(A) multiplies a matrix, written as a vector row by row, by A from the left, tf_spost(A) from the right.", "quantifier": "all shapes, stacks and entries", "why_tests_cant": "tests check fixed small matrices; the reshaping has to be right for every pair of shapes", "anchors": ["c3/utils/tf_utils.py:tf_kron", "c3/utils/tf_utils.py:tf_spre", "c3/utils/tf_utils.py:tf_spost", "c3/utils/tf_utils.py:Id_like"]}
{"id": "C212", "title": "Randomized benchmarking decays exponentially, and epc and epg are the errors per Clifford and per gate", "statement": "Averaged over all draws of single_length_RB, the probability to return to the ground state after a sequence of length n is A r^n + B (the function fitted by RB) up to a term that vanishes exponentially faster, for any trace preserving gates close to the ideal ones. 0.5 (1 - r) is the mean average infidelity of the 24 Cliffords up to second order. The expected value of orbit_infid is one minus this mean for any number of sequences. The reported epg is the average infidelity of a gate.", "quantifier": "all operations of the four gates within a fixed distance of the ideal ones, all lengths, all numbers of sequences, all depolarizing strengths", "why_tests_cant": "a statement about the mean over 24^n random sequences and about a limit; tests run a few draws", "anchors": ["c3/libraries/fidelities.py:RB", "c3/libraries/fidelities.py:orbit_infid", "c3/libraries/fidelities.py:leakage_RB", "c3/utils/qt_utils.py:single_length_RB", "c3/utils/qt_utils.py:inverseC", "c3/utils/qt_utils.py:cliffords_decomp"]}
{"id": "C213", "title": "Small errors of signals and parameters cause small errors of gates, infidelities and populations", "statement": "The propagator of a gate changes by at most the sum over the samples of the slice duration times the change of the sampled Hamiltonian; a change of a signal therefore changes every entry by at most the area of the change times the norm of the control Hamiltonian, and an error of the drift Hamiltonian by at most the duration of the gate times its norm, however long the gate and whatever the batch size. Infidelities change by at most twice the change of the propagator, and the populations after a sequence by at most twice the sum of the changes of its gates.", "quantifier": "all Hermitian Hamiltonians, signals, durations, batch sizes, subsystems and sequences", "why_tests_cant": "a bound on how errors grow for every signal and every perturbation; tests compare stored numbers of one configuration", "anchors": ["c3/libraries/propagation.py:pwc", "c3/libraries/propagation.py:tf_propagation_vectorized", "c3/libraries/propagation.py:tf_batch_propagate", "c3/libraries/fidelities.py:unitary_infid", "c3/experiment.py:Experiment.evaluate_legacy"]}
{"id": "C214", "title": "A refused update is reported with the parameter, the value and the limits", "statement": "If set_parameters refuses a value, the exception names the parameter, the value and the limits it violates, with the limits in the unit of the value; unknown parameters and groups with different limits are named as well; an optimization that ends outside of the limits says so.", "quantifier": "all parameter maps, units, shapes, groups and values", "why_tests_cant": "tests provoke one exception and do not read its text", "anchors": ["c3/parametermap.py:ParameterMap.set_parameters", "c3/parametermap.py:ParameterMap.get_parameter", "c3/parametermap.py:ParameterMap.check_limits", "c3/c3objs.py:Quantity._set_value", "c3/utils/utils.py:num3str", "c3/optimizers/optimalcontrol.py:OptimalControl.optimize_controls"]}
{"id": "C215", "title": "Each drive line is rotated with the frequency its signal oscillates at", "statement": "When propagators are computed with frame rotation, each drive line turns the frame of its qubit with the frequency of the signal on that line, i.e. carrier plus frequency offset, plus its frame change; every pulse on the line counts with its own frequency, and the strength of a pulse does not matter.", "quantifier": "all drive lines, components, parameters and lengths of instructions", "why_tests_cant": "tests look at one pulse with one offset and an amplitude that is not zero", "anchors": ["c3/experiment.py:Experiment.compute_propagators", "c3/model.py:Model.get_Frame_Rotation", "c3/signal/gates.py:Instruction.get_awg_signal", "c3/signal/gates.py:Instruction.quick_setup", "c3/generator/devices.py:Mixer.process"]}
{"id": "C216", "title": "Library functions are found under the names they are written with", "statement": "Every function and class of the libraries is found in its registry under its name, and a shape or a Hamiltonian that is written to a file is the same function after reading it.", "quantifier": "all registries, functions and files", "why_tests_cant": "tests write and read a few shapes only", "anchors": ["c3/libraries/envelopes.py:env_reg_deco", "c3/libraries/hamiltonians.py:hamiltonian_reg_deco", "c3/generator/devices.py:dev_reg_deco", "c3/utils/utils.py:deprecated", "c3/signal/pulse.py:Envelope.asdict", "c3/libraries/chip.py:LineComponent.asdict"]}
{"id": "C217", "title": "Helpers compute absolute values, means and differences and convert data as documented", "statement": "tf_abs, tf_abs_squared, tf_ave and tf_diff return modulus, squared modulus, mean and running difference in the documented shape; ask_yn returns the first valid answer; jsonify_list returns data without arrays and objects and leaves arrays alone if told so.", "quantifier": "all tensors, lists, answers and nested data", "why_tests_cant": "tests have a few values and do not cover ask_yn and jsonify_list", "anchors": ["c3/utils/tf_utils.py:tf_abs_squared", "c3/utils/tf_utils.py:tf_abs", "c3/utils/tf_utils.py:tf_ave", "c3/utils/tf_utils.py:tf_diff", "c3/utils/utils.py:ask_yn", "c3/c3objs.py:jsonify_list"]}
{"id": "C218", "title": "Resonant pulses of the right area make the gates of the table", "statement": "When a resonant pulse with the area and phase of a gate of the table (rx90p, rx90m, rxp, ry90p, ry90m, ryp) drives one qubit and nothing drives the others, unitary_infid and average_infid between the table and the computed propagator are between zero and the dimension times the square of the error of the propagator, which is inversely proportional to anharmonicity and carrier frequency plus a term that falls with the square of the resolution. The same holds for simultaneous pulses on several qubits and the product of their rotations.", "quantifier": "all numbers of qubits and levels, frequencies, anharmonicities, pulse shapes with bounded slopes, phases, lengths, resolutions and batch sizes", "why_tests_cant": "tests look at the infidelity of single optimized pulses", "anchors": ["c3/experiment.py:Experiment.compute_propagators", "c3/libraries/fidelities.py:unitary_infid", "c3/libraries/fidelities.py:average_infid", "c3/libraries/propagation.py:pwc", "c3/libraries/constants.py:GATES"]}
{"id": "C219", "title": "From the parameters of an instruction to the gate", "statement": "Let an instruction play, through the standard chain of local oscillator, waveform generator, converter, mixer and conversion to frequencies, an envelope with a smooth shape on a carrier at the frequency of the qubit. Then signal generation, propagation and frame rotation all succeed, and the propagator is the rotation by the area of shape times amplitude times conversion factor, about the axis at the xy-angle of the envelope. The error is bounded by a term inversely proportional to anharmonicity and carrier frequency, a term that falls with the square of the simulation resolution, and a term for the played envelope that falls with the resolution of the waveform generator, plus the thousandth of the pulse that the mask of the envelopes removes when there are 500 or more samples. For the areas and angles of the single-qubit gates of the table both infidelities are at most the dimension times the square of this error.", "quantifier": "all numbers of qubits and levels, frequencies, anharmonicities, amplitudes, angles, conversion factors, shapes with bounded slopes, lengths, resolutions of waveform generator and simulation, and batch sizes", "why_tests_cant": "tests run single instructions through the chain and compare with recorded signals or fidelities", "anchors": ["c3/generator/generator.py:Generator.generate_signals", "c3/generator/devices.py:AWG.process", "c3/generator/devices.py:DigitalToAnalog.process", "c3/generator/devices.py:Mixer.process", "c3/generator/devices.py:VoltsToHertz.process", "c3/experiment.py:Experiment.compute_propagators", "c3/libraries/propagation.py:pwc", "c3/libraries/fidelities.py:unitary_infid"]}
{"id": "C220", "title": "Adding to a quantity in place shifts its value", "statement": "After q.add(x) or q.subtract(x) returns, q.numpy() is the old value plus or minus x, element by element; the calls raise only if a shifted element is outside the limits, and adding then subtracting the same number restores the value.", "quantifier": "every quantity and number", "why_tests_cant": "no test calls these methods on a quantity with a unit factor", "anchors": ["c3/c3objs.py:Quantity.add", "c3/c3objs.py:Quantity.subtract"]}
{"id": "C221", "title": "Areas of the envelopes", "statement": "The areas of the envelopes over their length are: the width factor times the error function for gaussian_nonorm, one for gaussian_sigma, a closed form for drag_sigma, zero for the derivatives gaussian_der, gaussian_der_nonorm and drag_der, the length less one slope (2.5 risefall) for trapezoid, the length less one ramp for cosine_flattop, the sum of the areas of the waves for fourier_sin and fourier_cos, the trapezoidal rule of the samples for pwc_shape, and width times cosine coefficients plus arcs of the sines for slepian_fourier before its scaling.", "quantifier": "all lengths, widths, slopes, coefficients and samples", "why_tests_cant": "tests compare sampled shapes with stored arrays", "anchors": ["c3/libraries/envelopes.py:gaussian_sigma", "c3/libraries/envelopes.py:drag_sigma", "c3/libraries/envelopes.py:trapezoid", "c3/libraries/envelopes.py:cosine_flattop", "c3/libraries/envelopes.py:fourier_sin", "c3/libraries/envelopes.py:pwc_shape", "c3/libraries/envelopes.py:slepian_fourier"]}
{"id": "C222", "title": "Amplitudes that make gates", "statement": "With the envelope rect, an amplitude (after conversion) of the angle divided by the length makes the rotation; with cosine twice that; with gaussian_sigma the angle itself, whatever length and width. For the angles of the single-qubit gates of the table, the whole path from instruction to infidelity succeeds and the infidelity is at most the dimension times the square of the error of C219, whose terms depend only on angle, length and width of the pulse, the gap to other transitions and the resolutions.", "quantifier": "all numbers of qubits and levels, frequencies with a gap, lengths, widths, conversion factors, resolutions and batch sizes", "why_tests_cant": "tests use amplitudes found by optimization", "anchors": ["c3/libraries/envelopes.py:rect", "c3/libraries/envelopes.py:cosine", "c3/libraries/envelopes.py:gaussian_sigma", "c3/experiment.py:Experiment.compute_propagators"]}
{"id": "C223", "title": "From instructions to the populations of circuits", "statement": "Let each gate of a set have an instruction whose lines play smooth envelopes on carriers at the frequencies of the qubits of a chip of anharmonic oscillators. Then compute_propagators succeeds for the whole set, evaluate_legacy succeeds for all sequences of these gates, and the populations it returns for a normalised initial state in the two lowest levels are those of the circuit of rotations by the areas of the amplitudes about the axes at the xy-angles. The sum of the absolute errors of all populations of a sequence is at most twice the dimension times the sum of the errors of its gates (as in C219), so that it grows at most linearly with the number of gates.", "quantifier": "all numbers of qubits and levels, frequencies with a gap, sets of instructions, envelopes, resolutions, batch sizes, lists of sequences of any length and initial states in the computational space", "why_tests_cant": "tests evaluate a few fixed sequences on one chip", "anchors": ["c3/experiment.py:Experiment.compute_propagators", "c3/experiment.py:Experiment.evaluate_legacy", "c3/experiment.py:Experiment.populations", "c3/generator/generator.py:Generator.generate_signals"]}
{"id": "C224", "title": "Constructing optimizers", "statement": "ModelLearning can be constructed exactly if no estimator is given, names of algorithm and sampling are known, state labels are given and there are readable data files; Sensitivity exactly if additionally there is no list of estimators and something to sweep. Labels, callbacks, algorithm (lbfgs for none), data and options are the ones given, unknown callback names are skipped. Constructing a Sensitivity replaces the optimization map of the parameter map and nothing else. A sweep sets the bounds in its options and the optimization map and changes the options of no other optimizer.", "quantifier": "all arguments, libraries, parameter maps and option dictionaries", "why_tests_cant": "tests construct each class with one set of arguments", "anchors": ["c3/optimizers/modellearning.py:ModelLearning.__init__", "c3/optimizers/sensitivity.py:Sensitivity.__init__", "c3/optimizers/sensitivity.py:Sensitivity.sensitivity", "c3/optimizers/optimizer.py:Optimizer.set_algorithm"]}
{"id": "C225", "title": "Weak decoherence changes gates and populations little", "statement": "If the propagators of a closed system can be computed, so can those of the open system with the same Hamiltonians and any collapse operators. As operators on density vectors the gates differ by at most exp(G*T)-1 in the operator norm, where T is the time the gate plays and G twice the sum of the squared norms of the collapse operators; if G*T is at most one this is at most 2*G*T, and without collapse operators the gates are equal. The populations that evaluating gives after a sequence of gates from a basis state differ by at most the same expression with the time of the whole sequence.", "quantifier": "all chips, collapse operators, pulses with nonnegative sampling steps, sequences and basis states", "why_tests_cant": "a test compares one open system to one closed system for one gate", "anchors": ["c3/libraries/propagation.py:pwc", "c3/libraries/propagation.py:tf_propagation_lind", "c3/experiment.py:Experiment.compute_propagators", "c3/experiment.py:Experiment.evaluate_legacy", "c3/utils/tf_utils.py:tf_super"]}
{"id": "C226", "title": "A waiting register relaxes with T1 and dephases with T2*", "statement": "If an uncoupled register plays gates without signals, the mean number of excitations of a component that has only a relaxation time T1 is, after evaluating any sequence of gates of total length t from any initial state, exp(-t/T1) times the initial one, whatever decay the other components have and whatever frame rotations are applied. If the components have only dephasing times T2*, all populations stay as they are, and each entry of the density matrix falls in modulus by exp(-t*r), where r sums over the components the squared difference of levels divided by T2*.", "quantifier": "all uncoupled chips, decay times, lengths and sequences of gates, initial density vectors and frame rotations", "why_tests_cant": "a test waits for one time with one component from one initial state", "anchors": ["c3/libraries/chip.py:Qubit.get_Lindbladian", "c3/libraries/chip.py:Transmon.get_Lindbladian", "c3/libraries/propagation.py:pwc", "c3/libraries/propagation.py:tf_propagation_lind", "c3/experiment.py:Experiment.compute_propagators", "c3/experiment.py:Experiment.evaluate_legacy"]}
{"id": "C227", "title": "Noisy circuits approach the ideal ones for short gates and long decay times", "statement": "A set of instructions with smooth envelopes is played on uncoupled resonantly driven components with any collapse operators. The populations that evaluating any sequence of the gates gives from a computational basis state differ from those of the circuit of ideal rotations by at most the errors of the gates of the closed system plus exp(G*t)-1, where t is the sum of the gate lengths. For components with relaxation and dephasing times and without temperature G is at most twice the sum of the squares of sqrt(r*(d-1)) + sqrt(2/T2*)*(d-1), where r is the relaxation rate and d the number of levels; for two-level qubits with relaxation times only this is the sum of 2/T1.", "quantifier": "all registers, instructions, resolutions, collapse operators, decay times, sequences and computational basis states", "why_tests_cant": "a test simulates one circuit with one set of decay times", "anchors": ["c3/experiment.py:Experiment.compute_propagators", "c3/experiment.py:Experiment.evaluate_legacy", "c3/libraries/propagation.py:pwc", "c3/libraries/chip.py:Qubit.get_Lindbladian", "c3/libraries/chip.py:Transmon.get_Lindbladian", "c3/generator/generator.py:Generator.generate_signals"]}
{"id": "C228", "title": "Leakage benchmarking finds the leakage, seepage and error of the Cliffords", "statement": "Suppose each of the four gates leaks to a third level with probability a, returns from it with probability b and shortens the Bloch vector to the fraction l. Then the expected computational population in leakage_RB is the function it is fitted with, up to an error that falls faster with the length than the fitted decay; exact data at three consecutive lengths leave one choice of the parameters, and from these leakage, seepage and error per Clifford are exactly the mean leakage, seepage and infidelity of the 24 Cliffords. The survival of the ground state is the function it is fitted with.", "quantifier": "all leakage, seepage and depolarizing rates, sequence lengths and numbers of sequences, averaged over all draws", "why_tests_cant": "a test draws a few random sequences and fits a curve; it cannot tell a wrong fit function from statistical noise", "anchors": ["c3/libraries/fidelities.py:leakage_RB", "c3/libraries/fidelities.py:populations", "c3/libraries/propagation.py:evaluate_sequences", "c3/utils/qt_utils.py:single_length_RB"]}
{"id": "C229", "title": "The value of the goal function bounds the errors of circuits", "statement": "Let the propagators of some gates be unitary and let unitary_infid compare them with their ideal gates on n qubits. A value x of a gate means that from every state of the qubits the state after the gate, all higher levels included, differs from the ideal one by at most sqrt(2 * 2^n * x) up to a phase, and that the mean population moved out of the computational space is at most x. A value v of unitary_infid_set for m gates means that the populations evaluate returns for any circuit of k of these gates differ from the ideal ones by at most 2 * k * sqrt(2 * 2^n * m * v) in sum. average_infid_set is the same number times 2^n / (2^n + 1).", "quantifier": "all registers, levels, unitary propagators, ideal gates of the library and their targets, circuits and states of the qubits", "why_tests_cant": "a test evaluates some circuits after an optimisation; the bound is for all circuits and states and follows from the one number the optimiser sees", "anchors": ["c3/libraries/fidelities.py:unitary_infid", "c3/libraries/fidelities.py:unitary_infid_set", "c3/libraries/fidelities.py:average_infid_set", "c3/experiment.py:evaluate_legacy", "c3/signal/gates.py:get_ideal_gate"]}
{"id": "C230", "title": "Counts of circuits on the Qiskit backend are those of the ideal circuit within the gate errors", "statement": "Let the gates of a circuit be in the table of propagators under their name and qubits, with values of unitary_infid. Running the circuit on the Qiskit backend reports for every label, in Qiskit's order with qubit 0 as least significant bit, a count that differs from shots times the probability of the ideal circuit by at most shots times twice the sum of sqrt(2 * 2^n * infidelity) over the gates, plus one half. Without a measurement the populations are reported, with the same bound without shots and rounding.", "quantifier": "all registers with equal levels, unitary propagators, ideal gates, circuits of known gates with measurements and barriers anywhere, numbers of shots and initial states of the qubits", "why_tests_cant": "a test runs a few circuits with perfect or nearly perfect gates and one device; it cannot bound the counts of every circuit by the infidelities of the gates", "anchors": ["c3/qiskit/c3_backend.py:run_experiment", "c3/qiskit/c3_backend.py:get_labels", "c3/qiskit/c3_backend.py:generate_shot_readout", "c3/qiskit/c3_backend.py:disable_flip_labels", "c3/experiment.py:evaluate_qasm", "c3/experiment.py:process"]}
{"id": "C231", "title": "The AWG reports the amplitudes of what it plays", "statement": "get_average_amp(line) returns mean and sum of the absolute value of the complex waveform the current instruction plays on the line; for a lone pulse they do not depend on angle and frequency offset, and with shapes of height at most one the mean is at most the sum of the absolute amplitudes. amp_tot is the root of the added squares of the amplitudes of the pulses. log_shapes writes the signals to the log file.", "quantifier": "all sequences of calls of create_IQ with any channels, components and samples, and all lines", "why_tests_cant": "a test looks at one pulse; it does not see what is left over from earlier instructions, and no test calls log_shapes", "anchors": ["c3/generator/devices.py:AWG.create_IQ", "c3/generator/devices.py:AWG.get_average_amp", "c3/generator/devices.py:AWG.get_I", "c3/generator/devices.py:AWG.get_Q", "c3/generator/devices.py:AWG.log_shapes", "c3/signal/gates.py:Instruction.get_awg_signal"]}
{"id": "C232", "title": "Open-system gates are quantum channels", "statement": "Every propagator of the open system, of one slice, of a gate computed by pwc with any number of slices and any batch size, of a frame rotation made by tf_super, and of any sequence of these, is a quantum channel: there are Kraus operators K with the sum of K^dagger K equal to one such that the propagator maps each density matrix rho to the sum of K rho K^dagger, in either way of stacking the matrix to a vector. So it maps density matrices to density matrices also when it acts on a part of a larger entangled system.", "quantifier": "all dimensions, Hermitian Hamiltonians and controls, lists of collapse operators, nonnegative time steps, control values, batch sizes and sequences", "why_tests_cant": "a test propagates a few states of one system; complete positivity speaks about all states of all larger systems, and transposition shows that mapping density matrices to density matrices does not suffice", "anchors": ["c3/libraries/propagation.py:tf_propagation_lind", "c3/libraries/propagation.py:tf_dU_of_t_lind", "c3/libraries/propagation.py:pwc", "c3/utils/tf_utils.py:tf_super", "c3/utils/tf_utils.py:tf_spre", "c3/utils/tf_utils.py:tf_spost"]}
{"id": "C233", "title": "A small open-system infidelity bounds all noisy circuits", "statement": "lindbladian_unitary_infid of a noisy gate is between zero and one and at least the average leakage. Its value x bounds the gate for every input state of the qubits: the fidelity with the ideal output is lower than one by at most 2^n x, and the density matrices differ by at most 2 sqrt(2^n x) in trace norm. So the value v of lindbladian_unitary_infid_set bounds the populations, those of the higher levels included, that evaluate returns for every circuit of the gates: their errors add up to at most 2 k sqrt(2^n N v) for k gates out of a set of N, and a value of zero makes all circuits exact.", "quantifier": "all registers, sets of gates of the library and custom gates, propagators that are channels (all that the library computes, C232), circuits of any length and input states; for evaluate's own stacking of the initial state, states with real amplitudes", "why_tests_cant": "a test compares the goal value with a reference number; it does not see that the value limits the error of circuits that were never optimized or run", "anchors": ["c3/libraries/fidelities.py:lindbladian_unitary_infid", "c3/libraries/fidelities.py:lindbladian_unitary_infid_set", "c3/utils/tf_utils.py:tf_superoper_unitary_overlap", "c3/utils/tf_utils.py:tf_project_to_comp", "c3/experiment.py:Experiment.evaluate_legacy", "c3/experiment.py:Experiment.populations"]}
{"id": "C234", "title": "The goal functions are differentiable in the parameters", "statement": "Propagators of closed and open systems and the infidelities unitary_infid, average_infid, lindbladian_unitary_infid and state_transfer_infid, with their means over sets of gates, are as often continuously differentiable in the parameters as the Hamiltonians, collapse operators and signals are. For instructions played by the standard chain this holds in amplitudes, xy-angles, carrier frequencies, conversion factors, parameters of the shapes and those of the chip together. Hence, where the gradient does not vanish, the first step of tf_sgd with a small enough learning rate lowers the goal, and a minimum is kept.", "quantifier": "all parameter spaces, orders of differentiability, chips, signals, numbers of samples and batch sizes; the number of samples is fixed", "why_tests_cant": "a test differentiates at single points; it cannot show that no parameters have a corner, where the gradient is undefined", "anchors": ["c3/libraries/propagation.py:pwc", "c3/libraries/propagation.py:tf_dU_of_t_lind", "c3/libraries/fidelities.py:unitary_infid", "c3/libraries/fidelities.py:average_infid", "c3/libraries/fidelities.py:lindbladian_unitary_infid", "c3/libraries/fidelities.py:state_transfer_infid", "c3/libraries/algorithms.py:tf_sgd"]}
{"id": "C235", "title": "After an optimization circuits are as good as the best point", "statement": "After optimize_controls the experiment evaluates circuits with the gates of the best point: if the goal function was at most v at any point that was evaluated, the populations of circuits of n gates differ from the ideal ones by at most 2 n sqrt(2 * 2^k * N * v) for N gates on k compared qubits, and correspondingly for open systems.", "quantifier": "every parameter map of scalar parameters, every list of points within the limits that an algorithm evaluates, all dimensions and subsystems, every dependence of the propagators on the parameters, every circuit and start state", "why_tests_cant": "The parameters after an optimization depend on all points the algorithm proposed, and the state of the experiment on their order. Tests look at the final value of the goal function.", "anchors": ["c3/optimizers/optimalcontrol.py:164-225", "c3/optimizers/optimizer.py:173-186", "c3/experiment.py:273-302", "c3/experiment.py:440-534", "c3/parametermap.py:73-90"]}
{"id": "C236", "title": "Relaxation, Ramsey and echo sequences show T1 and T2*", "statement": "On a two-level qubit with ideal quarter turns, started in the ground state, the excited population after T1_sequence with n waits of length tau is exp(-n*tau/T1); after ramsey_sequence it is (1 + cos(n*theta)*exp(-n*tau*kappa))/2, where theta is the phase the qubit gains against the frame in one wait (energy difference times length minus the phases of the carriers, zero on resonance) and kappa is 1/T2* plus half the relaxation rate; after ramsey_echo_sequence it is (1 + exp(-kappa*t))/2 for the time t of all waits in the sequence, whatever theta.", "quantifier": "all lengths, qubit frequencies, decay times, carriers, frame changes and sample counts of the wait, with and without frame rotation", "why_tests_cant": "A test fits one curve with noise. It cannot tell a wrong rate or a phase that does not refocus from a poor fit, nor cover all detunings and lengths.", "anchors": ["c3/utils/qt_utils.py:363-445", "c3/libraries/chip.py:184-242", "c3/libraries/chip.py:404-467", "c3/model.py:536-580", "c3/experiment.py:273-302", "c3/experiment.py:440-534"]}
{"id": "C237", "title": "Coupled qubits exchange their excitation at the rate of the coupling", "statement": "Two two-level qubits joined by a coupling of strength J (int_XX or int_YY) that play gates without signals for the total time T exchange populations only between the states in which both qubits are flipped: from 01 the population J^2/(J^2+d^2) * sin^2(sqrt(J^2+d^2)*T) is found in 10, d being half the difference of the frequencies; from 00 the same formula holds for 11 with half the sum. Equal frequencies and cos(J*T) = 0 exchange the excitation completely, and only equal frequencies can. With both carriers at the common frequency w and sin(J*T) = -1 the gate is the iswap of the gate table with an infidelity unitary_infid of at most (J/w)^2 * (1/2 + (J*T)^2/8).", "quantifier": "all frequencies, strengths, signs, durations, numbers of samples, sequences of waits whose frames treat both qubits alike, drives on the chip, both interaction functions", "why_tests_cant": "A test runs one pair of frequencies at one time. A coupling that is too strong by a factor, one that lost a term, or a frame that turns against the qubits shifts the oscillation by an amount that depends on all of them.", "anchors": ["c3/libraries/hamiltonians.py:78-124", "c3/libraries/chip.py:1155-1203", "c3/libraries/chip.py:152-182", "c3/model.py:425-443", "c3/model.py:536-580", "c3/experiment.py:273-302", "c3/experiment.py:440-534", "c3/libraries/constants.py:81-83", "c3/libraries/fidelities.py:154-183"]}
{"id": "C238", "title": "Waiting in the dressed basis keeps populations, and with carriers at the reported frequencies keeps the state", "statement": "In the dressed basis gates without signals leave all populations of every state as they are, whatever couplings and frames the model has. If the model uses the frame rotation and the carriers of the gate are the frequencies returned by get_qubit_freqs, the gate multiplies the dressed state of the label l by exp(-i*s(l)*T) up to a common phase, where s(l) is what the energy of l differs from the sum of the energies of its excitations. So superpositions of the ground state and single excitations are kept up to a phase, and for two two-level qubits with an int_XX or int_YY coupling of any strength the gate is the identity up to a phase: inserting it anywhere in a sequence changes no population.", "quantifier": "all numbers of subsystems and levels, all couplings with eigenvectors of more than half their weight on one bare state, all durations, states and sequences", "why_tests_cant": "A test idles one chip for one time. A frame that turns the wrong way, frequencies of the bare instead of the dressed qubits or a lost reordering give phases that grow with the time and only show when a later gate interferes them.", "anchors": ["c3/model.py:453-534", "c3/model.py:536-578", "c3/model.py:580-592", "c3/experiment.py:273-302", "c3/experiment.py:440-534", "c3/libraries/hamiltonians.py:78-124"]}
{"id": "C239", "title": "A warm qubit that waits settles at the thermal populations of half its temperature", "statement": "A two-level qubit with a relaxation time and a temperature, and no dephasing time, waits through any sequence of silent gates: its excited population goes exponentially to the thermal one at half the given temperature, with the rate of the relaxation times one plus the squared Boltzmann factor. The thermal state that initialise prepares at the same temperature as that of the qubit is therefore not kept: it cools. The one at half the temperature is kept. The relaxation sequence decays faster than with the given T1.", "quantifier": "all frequencies, temperatures, relaxation times, frames, initial states of trace one and sequences of silent gates", "why_tests_cant": "A test at one temperature sees a population relax to something small; that the stationary one is not the one the task module prepares for the same temperature only shows in the law for all times and temperatures.", "anchors": ["c3/libraries/chip.py:184-242", "c3/libraries/chip.py:404-467", "c3/libraries/tasks.py:46-88", "c3/experiment.py:273-302", "c3/experiment.py:440-534", "c3/utils/qt_utils.py:363-382"]}
{"id": "C240", "title": "The number of gates per Clifford turns the decay of randomized benchmarking into the error per gate", "statement": "The constant cliffors_per_gate is 9/4, the mean length of the decompositions of the 24 Cliffords. Sequences of single_length_RB of length n of at least two have on average over all draws n times that many gates, since the closing inverse is every Clifford equally often. For any operations near the ideal gates the infidelity of a Clifford is the sum of those of its gates up to second order, so half of one minus the decay constant, divided by the constant, is the mean infidelity of the gates up to second order. The error per gate that RB returns uses a fourth root instead and is 9/16 of it.", "quantifier": "all lengths, all trace preserving operations of the four gates near the ideal ones, different for every gate", "why_tests_cant": "A run draws a few sequences and fits noisy data; that the mean over all draws of the length is exact, and that the reported error per gate is too small by a fixed factor for every kind of error, cannot be seen from samples.", "anchors": ["c3/utils/qt_utils.py:448-477", "c3/utils/qt_utils.py:528-553", "c3/utils/qt_utils.py:586-589", "c3/libraries/fidelities.py:515-590"]}
{"id": "C241", "title": "Many Trotterised steps converge to the evolution under the Hamiltonian", "statement": "N steps of pwc_trott_drift with the time step T/N and constant control fields converge to exp(-iT(h0+ht)), with an error of second order in 1/N thanks to the commutator term.", "quantifier": "every drift with real eigenvectors, all control fields and times", "why_tests_cant": "the function is not covered by tests, and a test with a fixed step could not tell a slow convergence from a wrong limit", "anchors": ["c3/libraries/propagation.py:443-458"]}
{"id": "C242", "title": "A generator plays the accepted chains of the channels of an instruction and reports every device to the callback", "statement": "set_chains either replaces all chains or, if one of them is refused, changes nothing. generate_signals returns a signal for every channel of the instruction and for no other, the value of the device graph of that channel; the callback is called once for every device of these channels, after the calls for its sources, with its output; a crosstalk device acts on all signals at the end; an unknown channel is refused.", "quantifier": "all devices, chains, instructions and callbacks, any number of channels", "why_tests_cant": "tests build one generator and never look at it after a refused chain; the callback is only used for plots", "anchors": ["c3/generator/generator.py:36-91", "c3/generator/generator.py:171-229"]}
{"id": "C243", "title": "Optimizing without limits in the coordinates of the optimizer is optimizing within the limits", "statement": "The goal as a function of arbitrary proposals has a global or local minimum exactly at the proposals that are folded to global or local minima within the limits; its gradient is that at the folded point with the signs of the folding, times half the distance of the limits for physical values; the gradient handed to the algorithm is this gradient at every point.", "quantifier": "all goal functions, parameter maps (vector parameters included) and proposals of any length", "why_tests_cant": "tests start in the middle of the limits and look at the final goal; the gradient at a limit and the minima of the folded function are not looked at", "anchors": ["c3/c3objs.py:Quantity.set_opt_value", "c3/parametermap.py:356-395", "c3/optimizers/optimizer.py:217-241", "c3/optimizers/optimalcontrol.py:200-229"]}
{"id": "C244", "title": "Robust control hands the algorithm the gradient of its goal and reports the spread", "statement": "goal_run_with_grad returns the mean of the goals over the noise and the gradient of this mean with respect to the proposal; individual goals and their standard deviation are logged; a noise parameter that is also optimized adds its noise to the proposal.", "quantifier": "all noise maps with accepted values, proposals of scalar parameters and goal functions that depend on the values of the parameters and of the model", "why_tests_cant": "the test only checks that the optimization runs; gradients are not compared", "anchors": ["c3/optimizers/optimalcontrol_robust.py:40-70"]}
{"id": "C245", "title": "Relaxation, Ramsey and echo data determine the decay times and the frequency of a qubit", "statement": "A candidate model reproduces the data of a device (rms_dist and mean_dist zero) if and only if its parameters agree: relaxation data fix T1, echo data fix the decay rate of the coherences, Ramsey data fix the decay rate and the frequency.", "quantifier": "all devices and candidates with two levels, pulses of positive length and lists of numbers of waits", "why_tests_cant": "tests learn from one data set and start near the true values; they cannot show that no other values fit", "anchors": ["c3/optimizers/modellearning.py:218-360", "c3/libraries/estimators.py:19-37", "c3/utils/qt_utils.py:364-445", "c3/experiment.py:279-339"]}
{"id": "C246", "title": "The goal of model learning is a function of the proposal and bounds the deviation from the data", "statement": "After any number of evaluations the goal at a proposal is that of the measured values and the simulation at this proposal and the gate parameters of each data set; a goal g bounds every deviation and the root mean squared deviation by the shot noise times sqrt(2g+1).", "quantifier": "all parameter maps, data sets, proposals and histories of evaluations", "why_tests_cant": "the tests learn from one target, where nothing is left over, and do not check the meaning of the value", "anchors": ["c3/optimizers/modellearning.py:218-360", "c3/libraries/estimators.py:154-170"]}
{"id": "C247", "title": "A pulse off resonance excites the qubit by the formula of Rabi", "statement": "An instruction that plays a rectangular envelope on each line, with carriers that need not be at the frequencies of the qubits, and an experiment started in the ground state: each qubit is found excited with probability A^2/(A^2+D^2) sin^2(sqrt(A^2+D^2) T/2), where A is the amplitude of its line in the Hamiltonian, D the distance of its frequency to the carrier and T the length of the pulse; the error is at most a term for the rotating-wave approximation and the leakage, one for the slices of the simulation and one for the slices of the waveform generator. The excitation is complete on resonance only, half at a detuning as large as the amplitude, and periodic in the length of the pulse.", "quantifier": "all numbers of qubits, dimensions, frequencies, carriers, anharmonicities, amplitudes, phases, lengths, resolutions, batch sizes", "why_tests_cant": "Tests simulate one detuning and one length and cannot bound the error for all devices", "anchors": ["c3/experiment.py:440-534", "c3/libraries/propagation.py:259-341", "c3/generator/generator.py:172-229", "c3/libraries/envelopes.py", "c3/model.py:536-569"]}
{"id": "C248", "title": "Observables change at the rate of the Heisenberg picture and conserved ones stay constant", "statement": "The expectation value tr(M rho) returned by tf_measure_operator is <psi|M|psi> for a pure state, real for Hermitian M and rho, and between the smallest and largest value of M. The change of it by the step functions is dt times the expectation value of i[H,M] plus the adjoint dissipator of M (Ehrenfest); it vanishes for all states exactly if that rate vanishes, for closed systems exactly if M commutes with H. An observable without a rate at all samples of the Hamiltonian keeps its expectation value in all states returned by all solvers, under the propagator of every pulse and under the superoperator of every pulse of an open system. commutator and anticommutator satisfy the laws of their algebra and give observables.", "quantifier": "all dimensions, observables, states, Hamiltonians, collapse operators, signals, solvers, numbers of steps, batch sizes", "why_tests_cant": "Conservation holds for all states and pulses; a test sees one trajectory", "anchors": ["c3/utils/tf_utils.py:99-116", "c3/utils/tf_utils.py:562-567", "c3/libraries/propagation.py:886-904", "c3/libraries/propagation.py:259-341"]}
{"id": "C249", "title": "Chip elements that are not driven change their excitations in pairs only", "statement": "A group of chip elements (qubits, resonators or transmons; no SNAIL, which has a cubic term) whose couplings stay inside the group and which is not driven by x, y or third order lines: no gate has an amplitude between states with an even and an odd number of excitations in the group; after any history of an experiment the probability of finding an even number in the group is the same after every sequence of gates as in the initial state, and a state whose number differs by an odd number from that of the initial basis state is never found. The same probability is kept in open systems if the collapse operators do not move single excitations of the group. The group can be the whole undriven chip or a single spectator without couplings.", "quantifier": "all chips, dimensions, frequencies, couplings, samples of pulses, bases respecting the group, histories, sequences, initial states", "why_tests_cant": "The forbidden populations are exactly zero for every chip and pulse; a test sees small numbers for one of them", "anchors": ["c3/model.py:430-444", "c3/libraries/hamiltonians.py:16-182", "c3/libraries/propagation.py:259-341", "c3/experiment.py:440-534", "c3/experiment.py:273-302"]}
{"id": "C250", "title": "What is done to other chip elements does not show in the populations of a group without couplings to them", "statement": "Two experiments that treat a group of chip elements in the same way (same elements at the same places, same couplings among them, same samples on the lines that drive them, same carriers and frame changes, same time step and length of the gates, same collapse operators) and treat the other elements in any two ways (other parameters, couplings, lines, samples, carriers, decay, number of slices per batch), with no line touching both: of initial states that agree on all observables of the group every gate makes states that agree on all observables of the group, and after any two histories every sequence of gates gives the same probability of every combination of levels of the group, in closed and in open systems. Basis states with the same levels of the group, and product states with the same state of the group, agree on the group. Relaxation, thermal excitation and dephasing of an element are operators of that element alone.", "quantifier": "all dimensions, groups, pairs of chips, pulses, collapse operators, histories, sequences, initial states", "why_tests_cant": "A test compares two chips; the independence holds for every change of the other elements", "anchors": ["c3/model.py:430-444", "c3/libraries/chip.py:205-245", "c3/libraries/chip.py:425-470", "c3/libraries/hamiltonians.py:16-182", "c3/utils/qt_utils.py:68-96", "c3/libraries/propagation.py:259-341", "c3/experiment.py:440-534", "c3/experiment.py:273-302", "c3/model.py:536-578"]}
{"id": "C251", "title": "The unit of time is arbitrary", "statement": "Multiplying all frequencies, anharmonicities, couplings, samples of signals, carrier frequencies, conversion factors, resolutions and temperatures by a factor and dividing all times (steps, gate lengths, T1, T2*) by it changes nothing that an experiment computes: the propagators, the frame rotations, the exceptions and the populations after every history are the same, in closed and open systems. An instruction in the other unit plays the pulse in the other unit; the collapse operators of an element in the other unit are those that belong to it.", "quantifier": "all chips, pulses, instructions, decay times, temperatures, histories and sequences, all factors (positive, for closed systems also negative)", "why_tests_cant": "A test compares two units; a forgotten factor in one parameter of one element shows only if the test uses it", "anchors": ["c3/libraries/chip.py:160-245", "c3/libraries/chip.py:350-470", "c3/model.py:430-444", "c3/model.py:536-578", "c3/libraries/propagation.py:259-341", "c3/generator/devices.py:306-351", "c3/experiment.py:440-534"]}
{"id": "C252", "title": "The order in which chip elements are listed is arbitrary", "statement": "If the elements of a chip are listed in another order (with lines, carriers, collapse operators and dressed basis belonging to the same elements), there is exactly one renumbering of the states that keeps the level of every element, and it takes the propagators, frame rotations and exceptions of one chip to those of the other and, after every history and for every sequence and initial state, the population of every state to that of the renumbered state, in closed and open systems.", "quantifier": "all chips, permutations, pulses, histories, sequences, initial states", "why_tests_cant": "There are as many orders as permutations; a test compares two", "anchors": ["c3/model.py:161-205", "c3/model.py:430-444", "c3/model.py:536-578", "c3/utils/qt_utils.py:68-96", "c3/libraries/propagation.py:259-341", "c3/experiment.py:440-534", "c3/experiment.py:273-302"]}
{"id": "C253", "title": "Figures of merit do not depend on the order of the chip elements", "statement": "If the elements of a chip are listed in another order and the positions in `index` and in the targets of the instructions are moved with them, then the projections to the computational states and the ideal gates are the same operators in the other numbering, and `unitary_infid`, `average_infid`, `state_transfer_infid`, `lindbladian_unitary_infid` and `unitary_infid_set` return the same numbers, the last one after every history of the experiment, missing propagators included. In particular the order of the positions in `index` has no effect. For instructions without targets this fails: they are meant for all elements in the order of the chip.", "quantifier": "all chips, permutations, operators, selections, targets, histories", "why_tests_cant": "There are as many orders as permutations; a test compares two", "anchors": ["c3/libraries/fidelities.py:120-249", "c3/libraries/fidelities.py:290-311", "c3/utils/tf_utils.py:330-386", "c3/utils/tf_utils.py:428-436", "c3/utils/qt_utils.py:178-193", "c3/utils/qt_utils.py:219-250", "c3/signal/gates.py:140-162"]}
{"id": "C254", "title": "The order of lines, channels, carriers, collapse operators and instructions is arbitrary", "statement": "If two descriptions of a chip and its instructions differ only in the order in which lines (with distinct names), collapse operators, channels with their samples, carriers and instructions are listed, then `compute_propagators` either returns the same propagators or raises for both, it leaves the experiment in the same state in either case, and after every history the populations of all sequences are the same, in closed and open systems.", "quantifier": "all chips, permutations, pulses, instruction sets, histories, sequences, initial states", "why_tests_cant": "The order of dictionaries and lists is fixed in each test configuration", "anchors": ["c3/model.py:430-444", "c3/model.py:353-367", "c3/model.py:536-578", "c3/libraries/propagation.py:259-341", "c3/libraries/propagation.py:420-470", "c3/experiment.py:93-107", "c3/experiment.py:440-534"]}
{"id": "C255", "title": "Reciprocity: a closed chip driven backwards goes back with the same probability", "statement": "For every chip of the library components (with a real dressed basis if one is used) and every closed-system experiment: if the samples of all pulses are played in reverse order, with the opposite sign on `y_drive` lines, then the probability to go from one basis state to another in one gate is that of the way back with the pulses played forwards; without frame rotation the propagator is the transpose. The same holds for the populations of sequences in reverse order, after every history, if all gates have the same frame rotation or none. A gate whose samples read the same in both directions connects any two states with the same probability in both directions. All without approximation, for any number of levels, elements and couplings.", "quantifier": "all chips, pulses, histories, sequences, pairs of basis states", "why_tests_cant": "Tests run single pulses and never compare a pulse with its reverse; the statement is about all pulses", "anchors": ["c3/libraries/hamiltonians.py:1-182", "c3/libraries/propagation.py:259-341", "c3/libraries/propagation.py:345-380", "c3/utils/tf_utils.py:95-150", "c3/model.py:430-444", "c3/experiment.py:273-302", "c3/experiment.py:440-534"]}
{"id": "C256", "title": "The signs of couplings and transverse drives cannot be seen in populations", "statement": "Take any group of chip elements and change the sign of (a) the strengths of all couplings between the group and the rest, (b) the cubic terms of the SNAILs of the group, (c) all samples of the transverse drives (`x_drive`, `y_drive`, `third_order`) on elements of the group and of the coupling drives between the group and the rest; collapse operators may get any sign. Then `compute_propagators` finds the same propagators up to signs of the basis states (and raises in the same cases), and after every history the populations of all sequences are the same, in closed and open systems, when the initial states differ in the signs of their amplitudes, in particular for basis states and their mixtures. In a chip in which nothing couples the group with the rest this holds with the chip unchanged: playing the drives of the group with the opposite sign has no effect on populations.", "quantifier": "all chips, groups of elements, pulses, histories, sequences, initial states", "why_tests_cant": "Tests use one sign of couplings and pulses; the statement compares two configurations for all pulses", "anchors": ["c3/libraries/hamiltonians.py:1-182", "c3/libraries/chip.py:169-189", "c3/libraries/chip.py:1097-1118", "c3/libraries/chip.py:1194-1238", "c3/libraries/propagation.py:259-341", "c3/libraries/propagation.py:551-585", "c3/model.py:430-444", "c3/experiment.py:440-534"]}
{"id": "C257", "title": "Descriptions of a chip that mean the same give the same results", "statement": "The following changes of a description leave everything an experiment computes exactly the same (propagators, errors, and with them all later results), in closed and open systems: a SNAIL without cubic term is a qubit; a transmon without flux, or of asymmetry one, is a qubit; the flux of a transmon may change its sign or get one more flux quantum, and the asymmetry its sign; a qubit without anharmonicity is a resonator; the anharmonicity of a qubit of two levels is arbitrary; couplings of zero strength may be left out, two couplings of the same kind between the same elements may be replaced by one with the sum of the strengths, the ends of couplings and coupling drives may be exchanged, the elements of a drive may be listed in any order, `z_drive` may be replaced by `resonator`, drives that no instruction uses may be left out; and channels on which an instruction plays nothing may be left out if the chip has the line. If the chip does not have the line, the computation raises even though nothing is played.", "quantifier": "all chips, pulses and combinations of such changes", "why_tests_cant": "Tests use one description each; the statement compares infinitely many pairs of descriptions for all pulses", "anchors": ["c3/libraries/chip.py:152-189", "c3/libraries/chip.py:257-289", "c3/libraries/chip.py:355-425", "c3/libraries/chip.py:1080-1118", "c3/libraries/chip.py:1189-1254", "c3/libraries/hamiltonians.py:1-182", "c3/libraries/propagation.py:259-341", "c3/libraries/propagation.py:551-585", "c3/model.py:430-444", "c3/experiment.py:440-534"]}
{"id": "C258", "title": "Every kind of envelope can be played by an instruction", "statement": "`Instruction.get_awg_signal` computes a signal for every combination of carriers, envelopes, envelopes with `use_t_before`, DRAG envelopes and net-zero envelopes in a channel, and at every sample the signal is the sum over the components of amplitude times (masked shape, less the value one sample before the first with `use_t_before`; for DRAG the real part of this and minus delta times the derivative per sample in quadrature) times the phase factor of angle and frequency offset.", "quantifier": "all lists of components, parameters and sample times", "why_tests_cant": "The tests evaluate the envelopes on their own or one kind per instruction; the statement is about all combinations", "anchors": ["c3/signal/gates.py:341-370", "c3/signal/pulse.py:92-141", "c3/signal/pulse.py:165-181", "c3/signal/pulse.py:216-238"]}
{"id": "C259", "title": "Errors in the preparation of the state do not grow", "statement": "Take two initial states such that in no measurement the probabilities of an outcome differ by more than eps. Whatever chips and pulses the gates were computed with, and after every history of `compute_propagators`, the populations `evaluate` finds for the two states after any sequence of gates differ by eps at most, for every set of levels, in closed and open systems. In particular: if with probability eps any other state is prepared, the populations change by eps at most; if another state vector is prepared, they change by sqrt(1 - Re(overlap)^2) at most.", "quantifier": "all chips, pulses, histories, sequences, pairs of initial states and sets of levels", "why_tests_cant": "Tests start in a few basis states; the statement compares all pairs of states over all gate sequences", "anchors": ["c3/experiment.py:273-302", "c3/experiment.py:440-534", "c3/experiment.py:603-624", "c3/libraries/propagation.py:259-341", "c3/libraries/propagation.py:551-585", "c3/model.py:63-107"]}
{"id": "C260", "title": "A long pulse is the sequence of its pieces", "statement": "Cut the samples of an instruction into consecutive pieces and play each as an instruction of its own. Without frame rotation the propagator of the instruction is the product of the propagators of the pieces, latest first; if one of them cannot be computed, none can. Hence after a call of `compute_propagators` that computes all of them, whatever was computed before, `evaluate` finds the same populations for every list of sequences and for the list with the pieces in place of the instruction, from every initial state, in closed and open systems.", "quantifier": "all chips, pulses, ways of cutting, histories, lists of sequences and initial states", "why_tests_cant": "Tests compute fixed instructions; the statement compares all ways of cutting a pulse", "anchors": ["c3/experiment.py:273-302", "c3/experiment.py:440-534", "c3/experiment.py:603-624", "c3/libraries/propagation.py:259-341", "c3/libraries/propagation.py:551-585"]}
{"id": "C261", "title": "Without relaxation nothing can be cooled", "statement": "Take chips whose collapse operators only dephase (in particular: components without t1), with any parameters and pulses. After every history of `compute_propagators` the populations `evaluate` finds after a sequence are mixtures of the initial populations: there are transition probabilities that add up to one for every initial and for every final state. So the completely mixed state stays as it is, the entropy of the populations does not fall, and a bound on the probabilities in the initial state also bounds all populations afterwards, also for initial states with coherences. In closed systems the populations of a level, added up over all initial basis states, are one.", "quantifier": "all chips without relaxation, pulses, histories, lists of sequences and initial states", "why_tests_cant": "Tests look at single sequences from the ground state; the statement compares all initial states after all sequences", "anchors": ["c3/experiment.py:273-302", "c3/experiment.py:440-534", "c3/experiment.py:603-624", "c3/libraries/propagation.py:259-341", "c3/libraries/propagation.py:551-585", "c3/libraries/chip.py:205-242", "c3/libraries/chip.py:425-467"]}
{"id": "C262", "title": "The frame of the last gate cannot be seen", "statement": "Two experiments play the same samples on the same chip but may differ in the frame rotation of a gate g: one uses it and the other does not, or the carrier frequencies, frame changes, gate lengths or targets of the lines it is computed from differ. From every state g leads to the same populations in both. Hence `evaluate` finds the same populations for all sequences that end with g, if the gates before are the same, in closed and open systems.", "quantifier": "all chips, pulses, frames, histories of compute_propagators, lists of sequences and initial states", "why_tests_cant": "Tests check single frames; the statement compares all pairs of frames over all sequences and states", "anchors": ["c3/experiment.py:273-302", "c3/experiment.py:440-534", "c3/experiment.py:603-624", "c3/model.py:536-578", "c3/libraries/propagation.py:259-341"]}
{"id": "C263", "title": "Weak pulses excite little", "statement": "Take closed chips in their dressed basis, or chips without couplings. Call area of a pulse the time step times the sum over samples and channels of the absolute value of the sample times the norm of the control Hamiltonian. After every history of `compute_propagators`, `evaluate` finds from a basis state other states with a total probability of at most the square of the area under all pulses of the sequence; from any state no population changes by more than twice the area. So a sequence that takes a basis state to another one with probability P needs pulses of an area of at least the square root of P, whatever the frequencies, frames and shapes.", "quantifier": "all chips with diagonal drift, pulses, frames, histories, lists of sequences and initial states", "why_tests_cant": "Tests play a few pulses; the statement bounds the effect of all pulses of a given area", "anchors": ["c3/experiment.py:273-302", "c3/experiment.py:440-534", "c3/experiment.py:603-624", "c3/libraries/propagation.py:259-341", "c3/model.py:536-578", "c3/model.py:395-445"]}
{"id": "C264", "title": "Uncoupled elements are measured independently", "statement": "Take chips in the bare basis on which no line connects a group of chip elements with the others, with or without relaxation and dephasing of the elements. Whatever gates drive both at the same time, after every history of `compute_propagators` and for every sequence, started in a state without correlations between the group and the others (every basis state, every product state), `evaluate` gives populations in which the levels of the group and of the others are independent: the population of every state is the probability of its levels inside the group times the probability of its levels outside.", "quantifier": "all chips separated in two groups, collapse operators of the elements, pulses, frames, histories, lists of sequences and uncorrelated initial states", "why_tests_cant": "Tests simulate one or two coupled elements; the statement is about all chips that fall into separate parts and all simultaneous pulses", "anchors": ["c3/model.py:430-444", "c3/libraries/chip.py:205-245", "c3/libraries/chip.py:425-470", "c3/libraries/hamiltonians.py:16-182", "c3/utils/qt_utils.py:68-96", "c3/libraries/propagation.py:259-341", "c3/libraries/propagation.py:382-423", "c3/experiment.py:440-534", "c3/experiment.py:273-302", "c3/experiment.py:603-624", "c3/model.py:536-578"]}
{"id": "C265", "title": "Elements without couplings can be left out of the model", "statement": "Take a chip in the bare basis and another one with only some of its elements, in any order, with their couplings and collapse operators, so that the Hilbert space is smaller. If no line of the large chip connects the elements that are kept with the others, then after any histories of `compute_propagators` with pulses that play the same on the elements that are kept, and from initial states that agree on them, `evaluate` of the small model gives for every sequence the populations of the large model summed over the levels of the elements that were left out. This holds for closed systems and with relaxation, dephasing and thermal excitation of the elements.", "quantifier": "all chips, all choices of the elements that are kept, pulses, frames, collapse operators, histories, lists of sequences and initial states", "why_tests_cant": "Tests compare no models of different dimension; the statement covers every separated part of every chip and everything played on the rest", "anchors": ["c3/model.py:430-444", "c3/model.py:536-578", "c3/libraries/chip.py:205-245", "c3/libraries/chip.py:425-470", "c3/libraries/hamiltonians.py:16-182", "c3/utils/qt_utils.py:68-96", "c3/libraries/propagation.py:259-341", "c3/libraries/propagation.py:382-423", "c3/experiment.py:440-534", "c3/experiment.py:273-302", "c3/experiment.py:603-624"]}
{"id": "C266", "title": "Mixed initial states show mixed populations", "statement": "If the initial state of an open-system experiment is one of several density matrices, each with its probability, then `evaluate` gives for every sequence the averages of the populations it gives for those density matrices, whatever the propagators. On a chip without collapse operators, after any histories of `compute_propagators` with the same pulses, the open system started in a mixture of state vectors shows the averages of the populations of the closed system started in each of them; the density matrix to start with is the transposed one (see C26). In particular an incoherent initial state, such as a thermal one, shows the averages over the closed system started in the basis states.", "quantifier": "all chips, pulses, histories, lists of sequences, numbers of states in the mixture, weights and states", "why_tests_cant": "Tests start open systems in single basis states; the statement compares the two kinds of simulation for every mixture and every history", "anchors": ["c3/experiment.py:273-302", "c3/experiment.py:440-534", "c3/experiment.py:603-624", "c3/libraries/propagation.py:259-341", "c3/libraries/propagation.py:382-423", "c3/utils/tf_utils.py:284-308", "c3/model.py:63-107"]}
{"id": "C267", "title": "On a closed chip every sequence of gates is undone by repeating it", "statement": "Take the propagators after any history of `compute_propagators` for closed systems, any sequence of known gates and any accuracy. There are arbitrarily large numbers of repetitions of the sequence such that, for all normalised initial states and all gates played before and after, `evaluate` gives the same populations with and without the repeated sequence within that accuracy. In particular playing the sequence once and then one repetition less brings the initial populations back.", "quantifier": "all chips, pulses, histories, sequences, accuracies, initial states, and gates before and after", "why_tests_cant": "The number of repetitions depends on chip and pulses and has no bound a test could use; the statement says that no pulse on a closed chip loses information", "anchors": ["c3/libraries/propagation.py:259-341", "c3/libraries/propagation.py:425-444", "c3/experiment.py:273-302", "c3/experiment.py:440-534", "c3/experiment.py:603-624"]}
{"id": "C268", "title": "Populations under a repeated sequence obey a linear recurrence", "statement": "For every sequence of known gates there are D² real coefficients, where D is the dimension of the model, such that for all initial states and all gates played before and after, the populations `evaluate` gives after k + D² repetitions of the sequence are the combination with these coefficients of the populations after k, ..., k + D² - 1 repetitions. This holds for closed systems and, after any history of `compute_propagators` with non-negative step sizes, for open systems with decoherence. Hence two runs that agree for the first D² numbers of repetitions agree for all.", "quantifier": "all chips, pulses, collapse operators, histories, sequences, initial states, gates before and after, and numbers of repetitions", "why_tests_cant": "Tests repeat few gates a few times; the coefficients are not known to a test and have to be the same for all states and all numbers of repetitions", "anchors": ["c3/libraries/propagation.py:259-341", "c3/libraries/propagation.py:382-423", "c3/experiment.py:273-302", "c3/experiment.py:440-534", "c3/experiment.py:603-624"]}
{"id": "C269", "title": "Every sequence of gates has a state that it leaves unchanged", "statement": "After any history of `compute_propagators` and for any sequence of known gates there is a valid initial state such that any number of repetitions of the sequence cannot be noticed: `evaluate` gives the same populations with and without the repetitions, whatever gates are played afterwards. For closed systems it is a normalised state vector, for open systems with any decoherence and non-negative step sizes a density matrix.", "quantifier": "all chips with a non-empty Hilbert space, pulses, collapse operators, histories, sequences, numbers of repetitions and gates played afterwards", "why_tests_cant": "The state depends on chip and pulses and is not known to a test; the statement covers every sequence and every number of repetitions", "anchors": ["c3/libraries/propagation.py:259-341", "c3/libraries/propagation.py:382-423", "c3/experiment.py:273-302", "c3/experiment.py:440-534", "c3/experiment.py:603-624"]}
{"id": "C270", "title": "On average the populations settle at those of the state that is left unchanged", "statement": "Take the propagators after any history of `compute_propagators` for open systems with non-negative step sizes. If a sequence of known gates leaves at most one density matrix unchanged, then for every initial density matrix and all gates played at the end, the populations `evaluate` gives after k repetitions of the sequence, averaged over k = 0, ..., N, converge for growing N to the populations of that density matrix.", "quantifier": "all chips, collapse operators, pulses, histories, sequences that leave at most one density matrix unchanged, initial density matrices and gates at the end", "why_tests_cant": "A limit of arbitrarily many repetitions cannot be tested; the statement covers every chip with decoherence", "anchors": ["c3/libraries/propagation.py:382-423", "c3/experiment.py:273-302", "c3/experiment.py:440-534", "c3/experiment.py:603-624"]}
{"id": "C271", "title": "Averaged over the number of repetitions, populations always converge", "statement": "Take the propagators after any history of `compute_propagators`, any sequence of known gates, any valid initial state and any gates played at the end. The populations `evaluate` gives after k repetitions of the sequence, averaged over k = 0, ..., N, converge for growing N. For open systems with non-negative step sizes there is one density matrix that the sequence leaves unchanged and whose populations are the limits, whatever is played at the end. For closed systems the averages converge as well.", "quantifier": "all chips, collapse operators, pulses, histories, sequences, valid initial states and gates at the end", "why_tests_cant": "A limit of arbitrarily many repetitions cannot be tested; the statement needs no assumption on chip, pulses or decoherence", "anchors": ["c3/libraries/propagation.py:259-341", "c3/libraries/propagation.py:382-423", "c3/experiment.py:273-302", "c3/experiment.py:440-534", "c3/experiment.py:603-624"]}
{"id": "C272", "title": "Readout errors do not make experiments easier to tell apart", "statement": "If the probabilities of all sets of levels differ for two distributions by no more than some number, then so do the probabilities of all sets of readout results after `confuse` with any confusion rows between zero and one. Hence, after any history of `compute_propagators` and any sequence, the confused populations of two initial states differ by no more than what the best measurement of the initial states can tell, for closed and open systems. The confusion of averaged populations gives the averages of the confused populations.", "quantifier": "all confusion rows between zero and one, all distributions, chips, pulses, collapse operators, histories, sequences and pairs of initial states", "why_tests_cant": "Tests confuse single distributions; the statement compares every set of results for every pair of distributions", "anchors": ["c3/libraries/tasks.py:107-129", "c3/experiment.py:273-302", "c3/experiment.py:440-534", "c3/experiment.py:603-624"]}
