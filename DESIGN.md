# Formal model of c3 in Lean 4: design

## What is delivered

`lean/Verif/` holds a shallow Lean 4 model of c3's Python code, one directory per area:

* Definitions follow the Python functions branch by branch.
  Each cites the file and lines it models and says where it simplifies.
  Python exceptions are values (`Except` or `Option`), mutation is a returned new state, including the
  state left behind by a raising call.
* Larger areas (Quantity, ParamMap, Fold, Chain, Timing, Propagation, Hilbert) are split into `Model.lean`, `Spec.lean`,
  `Lemmas.lean` and `Props.lean`. Smaller ones keep definitions, the small specification, the lemmas and
  the property theorems in one file.
* Each property theorem is called `Cxx_...` and has an `example` beside it that shows it is not vacuous.
* A property the code violates gets a theorem with `false` in its name: the negation, with a concrete
  witness. The positive part that does hold is proved under its exact conditions.

`MANIFEST.json` maps property ids (`properties.jsonl`) to theorem names.
`seeded/LOG.jsonl` records the mutation tests made against the model.

## Trusted base

* Lean 4.33.0's kernel and the Mathlib definitions used in statements.
* Axioms: only `propext`, `Classical.choice`, `Quot.sound` (checked by the gate and by
  `#print axioms`). No axioms of our own, no `sorry`, no `native_decide`, no `bv_decide`.
* The tie between model and code is reading: every definition cites the lines it models.
* Numbers: IEEE floats are modelled by exact real or complex numbers (or any field / monoid when that
  is enough). Rounding, overflow and NaN are outside of the model unless a definition says otherwise.
* Library calls are modelled by their mathematical contract: `tf.linalg.expm` is the matrix
  exponential, `tf.signal.fft`/`ifft` the discrete Fourier transform and its inverse, `np.linspace`
  the exact even grid, `tf.linalg.eigh` an arbitrary unitary matrix of eigenvectors.
* Not modelled: TensorFlow graph tracing and gradients, file formats and the OS (except the
  open-truncate-write order of a file write), random number generators (an arbitrary choice),
  printing, `tf.function` retracing, dtype casts.

## Plan per property

| id | modelled | proof idea |
|----|----------|------------|
| C01-C05, C08 | `Quantity` as record (value list, offset, scale, pref) over the reals; setters with an `Except` result | affine round trip; invariant by induction over a list of operations |
| C03 | the `acos(cos())` fold | `Real.arccos_cos`, `Real.cos_arccos` |
| C06 | `asdict` and constructor | affine round trip |
| C07 | operators as written; the unit factor is applied twice | exact law for factor 1, negation with witness for other factors |
| C09-C18 | `ParameterMap` as finite map from identifier to `Quantity`, opt_map as list of groups | induction over groups; frame lemma; slicing lemma |
| C16 | `check_limits` reads the old map | negation with witness, partial theorem |
| C19 | `tf_matmul_n` with even/odd layers and folding stack | strong induction on the length |
| C20 | batches by slices | induction on the number of batches |
| C21 | `evaluate_sequences` | induction over sequences in a monoid |
| C22, C23 | matrix exponential of Mathlib | `exp` of skew-Hermitian is unitary; `exp_nsmul` |
| C24-C26 | Kronecker superoperators | `Matrix.kronecker` index identities; row/column stacking convention made explicit |
| C27, C28, C30 | RK solvers as written over an algebra | invariants by linearity; Taylor polynomial identity |
| C29 | loop of `compute_states` | negation with witness, exact description of the computed times |
| C31, C32 | `itertools.product` labels, iterated Kronecker product | induction over the dimension list |
| C33, C35 | library Hamiltonians of embedded annihilators | matrix identities; commuting embedded operators |
| C34 | rectangular cut matrix from label filter | matrix identities |
| C36 | greedy assignment of `reorder_frame` | invariant: used rows and columns are distinct; result a signed permutation |
| C37-C39 | diagonal exponentials; signal sum | pointwise identities |
| C40, C41 | collapse operator sums | exact generator; negation with witness for the sum of operators |
| C42 | Boltzmann weights | real analysis on finite sums |
| C43 | SQUID factor | trigonometric bounds |
| C44-C48 | Kahn ordering with a stack, chain check, stateful devices | loop invariant; acyclicity as existence of a rank function |
| C49 | slice numbers and linspace | floor arithmetic |
| C50, C52 | device maps on signals | pointwise identities |
| C51 | FFT convolution through the DFT | circular convolution theorem and zero padding |
| C53-C55 | timing recursion with fuel / trigger graph, `auto_adjust_t_end` loop | recursion equations; fixed point |
| C56, C59, C60 | exact arithmetic in Q(zeta_8) | whole table by kernel computation, induction over sequences |
| C57, C64 | Kronecker insertion, projectors | index identities |
| C58 | net-zero concatenation | list sums |
| C61-C63 | trace overlaps | Cauchy-Schwarz |
| C65, C67, C69 | populations, confusion matrix, process | sums over finite types |
| C66 | sequence builders | list lengths |
| C68 | propagator dictionary updates | finite map reasoning |
| C70-C73 | optimizer log state machine incl. crash points | induction over histories |
| C74, C75 | index samplers | list lemmas |
| C76 | weighted means | finite sums |
| C77 | `int()` truncation of the option | negation with witness |
| C78 | linspace sweep | list lemmas |
| C79-C81 | counts and labels, state validation | negations with witnesses, bounds |
| C82-C84 | envelopes and potentials | `HasDerivAt` |
| C85, C86 | `flatten` loop on a mutable list, `eng_num` | refinement to the recursive flatten; real logarithms |
| C87 | constructor limits | affine map; negation for swapped limits |
| C88, C89 | density matrices of kets; Lindblad propagation | Kraus/dissipator positivity, trace identities |
| C90 | Taylor series of the exponential | partial sums and remainder |
| C91 | sample times of the solvers | list lemmas over the time grid |
| C92-C95 | high-pass, step response, Gaussian kernel, DAC resampling | sums over lists, index arithmetic |
| C96, C97 | AWG mask, tuning devices | pointwise identities |
| C98, C99 | `Instruction.set_ideal`, parametric gates | case analysis, matrix exponential of a Pauli word |
| C100-C107 | sets of gates, superoperator figures, benchmarking, state overlaps | sums, Cauchy-Schwarz, witnesses |
| C108-C111 | expectation values, initial states, propagation method | trace identities, state machine |
| C112 | the best point is read back after a run | induction over evaluations |
| C113-C115 | samplers, estimators | order statistics of lists, sums, variance |
| C116-C118 | CMA-ES wrapper: stopping, noise, options | loop with fuel, witnesses |
| C119 | qiskit labels | counting |
| C120-C123 | Gaussian area, interpolation, plateau maps, result shapes | integrals by the fundamental theorem, case analysis |
| C124 | cached potential minima | state machine, witnesses |
| C125 | dephasing branch of `compute_propagators` | negation, exact description without dephasing |
| C126 | `set_parameters_scaled` with the rebuild flag | invariant over accepted maps, witnesses |
| C127 | recursive encoders of nested values | structural induction over nested values |
| C128-C132 | dictionaries of gates, devices and models | equality of ordered dictionaries, witnesses |
| C133 | remembered timings of an instruction | induction over the questions, general negations |
| C134, C135 | identifiers of the parameter map | injectivity of joining, lookup in ordered dictionaries |
| C136 | `rk4_unitary` | closed form of the step, products of lists |
| C137, C138 | settings of `pwc`, excitation limit | case analysis, intertwining of exponentials |
| C139, C140 | Trotter step, adaptive exponential series | diagonalisation, loop with fuel, convergence of the series |
| C141-C145 | drive signals, noise of the local oscillator, pink noise, step-response and high-pass filters | pointwise identities, induction over samples |
| C146-C149 | robust optimal control, sensitivity sweeps, model learning | frame conditions of the parameter map carried through the loops |
| C150-C152 | matrix elements of the Hamiltonians, detailed balance, dephasing rates | single-element operators are local in the product basis; rates from the entries of the summed collapse operator |
| C153-C156 | expanded transmon, flux qubits | ladder operator algebra; diagonal elements of powers of `a† + a` in a truncated space |
| C157-C160 | DRAG, fixed-width envelopes, delta and Fourier pulses | derivative of the sum of all samples; parameters as objects in a heap |
| C161-C164 | Qiskit runs: sanitising, parameter updates, gate matrices, order of control and target | abstract experiment with arbitrary set, compute and evaluate; Qiskit's rotation matrices trusted |
| C165-C166 | likelihood estimators | exact binomial and multinomial probabilities over reals |
| C167 | command line driver `run_cfg` | files, optimizers and model reading abstract; which steps run and which exceptions leave |
| C168 | virtual Z gates in QASM sequences | operators carry their dimension, so shape errors are visible |
| C169-C170 | experiment configuration and quick setup | reading of the parts abstract with the round trips of C128, C130, C131 as hypothesis; POSIX paths as character lists |
| C171 | figures of merit of sets of gates | lists of propagators with their ideal gates; exceptions and empty sets are `none` |
| C172 | views of a quantity | nested lists by shape; comparisons with numbers only |
| C173 | reports on optimised parameters, `get_opt_map` in place | opt_map lists are objects; lists and tuples as groups differ; text of a quantity abstract |
| C174-C176 | qubit frequencies, arbitrary bases, sparse Hamiltonians | eigenvectors of the drift given; attributes that go stale are kept in the state |
| C177-C179 | registry of goal functions, callbacks, evaluation counter | functions as parameter lists; `tf.function` runs Python code once per input signature (trusted) |
| C180, C181 | TensorBoard log, log table | records instead of event files; formatted numbers as numbers |
| C182-C185 | adaptive scan, SGD, two-stage optimization, table of algorithms | sampling of `adaptive` arbitrary; Keras' update rule and scipy's choice of solver trusted |
| C186-C188 | log directories, stored propagators | file system as a map from paths; no permissions; values leaking from a trace cannot be written (trusted) |
| C189, C190 | calibration run, data set, best point, reading the data | pickles as a list of objects; the optimizer as any sequence of proposals; measurement as an arbitrary function |
| C191-C193 | noise devices in chains, linear flux tuning, deprecated response filter | random draws as arbitrary functions; signals as dictionaries of lists of reals |
| C194, C195 | QASM operations, dictionary of instructions and propagators, perfect gates | keys as texts with decimal numbers; propagators as an arbitrary function of the instruction |
| C196 | attributes of the model under changes of parameters, frame and dynamics | operators of components as arbitrary functions of the parameters; transformation as an arbitrary function of the drift |
| C197 | Hamiltonians, times and step size from signals | Hamiltonian without control Hamiltonians as an arbitrary function of the values |
| C198 | printing of quantities | text as its pieces, each with the number its digits stand for |
| C199 | probabilities from parameters of chip and pulses | samples of the channels given; collapse operators arbitrary |
| C200 | result of the evolution strategies | pycma arbitrary, remembers the first best point; local search arbitrary |
| C201 | constructors of the chip elements | quantities by identity and length; name, dimension and connections not followed |
| C202 | convergence of `pwc` to the differential equations | entrywise error; existence and uniqueness of the solution are proved |
| C203 | `Hs_of_t`, solver loops on its result | signals are inputs; at least two samples |
| C204, C205 | order of the Runge-Kutta solvers, power series of a step against those of the solution | for `tsit5` only the first order; existence and uniqueness of the solution are proved |
| C206 | mean over all input states by invariance under unitaries, `average_infid` | measures on the amplitudes; existence of the uniform measure is proved |
| C207 | `tf_choi_to_chi`, `pauli_basis` on qubits | all dimensions two |
| C208 | `basis`, `xy_basis`, `expand_dims` | negative indices left out |
| C209 | closed propagators of uncoupled driven qubits; averaging in the rotating frame with explicit constants | signals are functions of time; no couplings, filters or mask |
| C210 | dictionary of backends, options record, job holding its result | backends are numbered objects |
| C211 | tensors as tables over index lists; expand_dims, broadcasting and row-major reshape | exact arithmetic |
| C212 | draws as all functions to 24 numbers; operations on Hermitian 2 by 2 matrices as bounded operators, group of Cliffords from C59 | exact mean over all outcomes instead of sampling; two levels |
| C213 | Duhamel bound between the evolutions of two Hamiltonians; norms are operator norms | closed systems |
| C214 | exceptions with the values in their messages; shapes of tensors decide whether the message can be formatted | text of messages as values |
| C215 | loop over the components of a line, with missing keys as exceptions; rotation of C37 and signals of C141 | scalar amplitudes |
| C216 | decorators as functions on registries and attributes of modules; tables of all registered names | behaviour of functions as arbitrary values |
| C217 | small helpers of `tf_utils`, `utils` and `c3objs` | nested data as trees |
| C218 | C209 and C61/C63 combined: from pulses to infidelities | those of C209 |
| C219 | the chain of devices as in test/conftest.py, run by the models of C44, C95 and C141, its frequencies by C215, then C209 and C218 | no response function; real shapes; resolutions that divide |
| C220 | `addInPlace`, `subtractInPlace` on the model of C01 | as C01 |
| C221 | integrals of the shapes of C82, C83, C120-C122, C160; samples for `cosine_flattop` | as those |
| C222 | C219 with the shapes of C83 and C120 | as C219 |
| C223 | C219 for a set of instructions, `compute_propagators` of C68 and `evaluate_legacy` of C65 | as C219 |
| C224 | constructors of `ModelLearning` and `Sensitivity`, choice of the algorithm, default options as objects of a store | data files are readable or not; a function is its name |
| C225 | gates and populations of open and closed systems with the same Hamiltonians (models of C24, C26, C65, C199) | exact arithmetic; basis states as initial states |
| C226 | decay and coherences while no signal is played (models of C25, C37, C41, C65, C68, C152, C199) | exact arithmetic; one collapse operator per component; components with T1 and T2* together only as neighbours |
| C227 | circuits of instructions with decoherence (models of C223, C225, C226) | exact arithmetic; computational basis states; no temperatures in the bound by decay times |
| C228 | `leakage_RB` for gates with leakage, seepage and depolarization (Lindbladian propagators of a three-level system) | exact expected values over all draws; gates without coherences between the computational levels and the third; `curve_fit` is not modelled, only which parameters match the data |
| C229 | values of `unitary_infid`, `unitary_infid_set`, `average_infid_set` followed to the populations of circuits from `evaluate_legacy` | closed system, unitary propagators (C199 shows the computed ones are) |
| C230 | whole path from a Qiskit circuit to its counts, with the gate errors of C229 | closed system, no readout tasks in the model, circuits of gates from the table of propagators |
| C231 | amplitudes reported by the AWG after any calls | the log file is taken to be writable |
| C232 | Kraus operators of open-system gates (`Verif/Propagation/Kraus.lean`), through the Choi matrix and the exponential as limit of products | exponential is exact |
| C233 | from the value of the open-system goal function to circuits (`Verif/Experiment/OpenGoal.lean`) | exact arithmetic; initial states with real amplitudes where the code stacks them (C26, C108) |
| C234 | existence of the derivatives used by the optimizers (`Verif/Experiment/Smooth.lean`) | exact arithmetic; the number of samples does not depend on the parameters |
| C235 | gates and circuits after an optimization (`Verif/Experiment/Optimized.lean`) | goal_run executed eagerly; the propagator of a gate is any function of the state of the parameter map; scalar parameters, proposals within the limits |
| C236 | relaxation, Ramsey and echo sequences on one qubit (`Verif/Experiment/Decays.lean`, models of C40, C65, C66, C68, C199) | quarter turns are ideal; two levels; no temperature |
| C237 | coupled qubits that wait (`Verif/Experiment/Exchange.lean`, models of C35, C37, C61, C65, C68, C150, C199) | two levels per qubit; no signals; product basis |
| C238 | idle gates in the dressed basis (`Verif/Experiment/Idle.lean`, models of C35, C36, C37, C61, C65, C68, C174, C199) | closed systems; no signals; the eigenvectors and eigenvalues are given |
| C239 | a waiting qubit at a temperature (`Verif/Experiment/Warm.lean`, models of C39, C42, C65, C66, C68) | one two-level qubit; no dephasing time; ideal quarter turns in the relaxation sequence |
| C240 | `cliffors_per_gate` (`Verif/Fidelity/PerGate.lean`, models of C59, C60, C105, C212) | one qubit; mean over all draws; the fit is the decay constant of C212 |
| C241 | `pwc_trott_drift`, many steps (`Verif/Propagation/Trotter.lean`, model of C139) | constant fields; `ort.T` read as the transpose |
| C242 | `Generator` with several channels, callback and crosstalk (`Verif/Chain/Generator.lean`, models of C44-C47) | pure devices; dictionaries without repeated keys |
| C243 | the goal as a function of proposals, derivative of `set_opt_value` as the tape computes it (`Verif/Optim/Folded.lean`) | simulation and fidelity are an arbitrary function of the parameter map; at the upper limit the rounded sine gives infinity instead of NaN, both become 1e-10 |
| C244 | `goal_run_with_grad` with the gradients of the tapes and `np.std` (`Verif/Optim/Robust.lean`) | scalar parameters; noise values accepted; the simulation depends on the values of the parameters and those the model was built from |
| C245 | comparison of the data of a qubit with the simulation of another (`Verif/Experiment/Learnable.lean`) | two levels; ideal quarter turns; data without noise; built on C236 |
| C246 | `goal_run` of `ModelLearning` with the parameter map, `g_LL_prime` and the combined goal (`Verif/Optim/Predict.lean`) | targets other than `all`; data sets already selected; the simulation depends on the values of the parameters and those the model was built from |
| C247 | the chain of C219 with carriers away from the frequencies of the qubits (`Verif/Experiment/Chevron.lean`) | as C219; rectangular envelopes |
| C248 | `tf_measure_operator`, `commutator`, `anticommutator` and the step functions that call them (`Verif/Propagation/Observables.lean`) | as C27 |
| C249 | the chain of C199 for a group of chip elements left alone (`Verif/Experiment/Selection.lean`) | as C199 |
| C250 | the chain of C199 for two chips with a common group of elements (`Verif/Experiment/Separate.lean`, `Verif/Hilbert/Local.lean`) | as C199; not in the dressed basis |
| C251 | the chain of C199 and C219 in two units (`Verif/Experiment/Units.lean`) | as C199 and C219 |
| C252 | the chain of C199 for two orders of the elements (`Verif/Experiment/Reorder.lean`) | as C199 |
| C253 | figures of merit for two orders of the elements (`Verif/Experiment/Merit.lean`) | as C252, C61-C64 and C57 |
| C254 | the chain of C199 for two orders of all lists and dictionaries (`Verif/Experiment/Listing.lean`) | as C199 |
| C255 | the chain of C199 for pulses and reversed pulses (`Verif/Experiment/Backwards.lean`) | as C199; closed systems |
| C256 | the chain of C199 for two choices of signs (`Verif/Experiment/Signs.lean`) | as C199 |
| C257 | the chain of C199 for two descriptions of a chip (`Verif/Experiment/Limits.lean`) | as C199; transmons with the asymmetry given, in the dressed basis with the same transformation |
| C258 | loop of `get_awg_signal` over all classes of envelopes (`Verif/Timing/Kinds.lean`) | derivative of DRAG envelopes as a parameter |
| C259 | the chain of C199 for two initial states (`Verif/Experiment/Preparation.lean`) | as C199 |
| C260 | the chain of C199 for an instruction and for its pieces (`Verif/Experiment/Cutting.lean`) | as C199; the samples of the pieces are given, i.e. the carrier of a piece continues that of the previous one |
| C261 | the chain of C199 with collapse operators that commute with their adjoints (`Verif/Experiment/Mixing.lean`) | as C199 |
| C262 | the chain of C199 for two experiments with different frames (`Verif/Experiment/LastFrame.lean`) | as C199 |
| C263 | the chain of C199 with a diagonal drift (`Verif/Experiment/WeakDrive.lean`) | as C199 |
| C264 | the chain of C199 for chips in separate parts (`Verif/Experiment/Independent.lean`) | as C199; bare basis |
| C265 | the chain of C199 for two chips of different dimension (`Verif/Experiment/LeftOut.lean`) | as C199; bare basis |
| C266 | the chain of C199 for mixtures of initial states, with and without density matrices (`Verif/Experiment/Mixture.lean`) | as C199 |
| C267 | the chain of C199 for repeated sequences (`Verif/Experiment/Recurrence.lean`) | as C199 |
| C268 | the chain of C199 for repeated sequences (`Verif/Experiment/Repetition.lean`) | as C199 |
| C269 | the chain of C199 for repeated sequences (`Verif/Experiment/Stationary.lean`) | as C199 |
| C270 | the chain of C199 for repeated sequences (`Verif/Experiment/Settle.lean`) | as C199 |
| C271 | the chain of C199 for repeated sequences (`Verif/Experiment/Ergodic.lean`) | as C199 |
| C272 | the chain of C259 continued by the readout (`Verif/Experiment/ReadoutNear.lean`) | as C199 |

## Where the code disagrees with a property

Each entry is proved as a theorem on the model (name contains `false`, or is named here).

| id | what the code does |
|----|--------------------|
| C07 | sums and products of quantities whose unit has a `pi` factor apply the factor twice |
| C13, C112 | a value accepted slightly outside the limits is mirrored when read and written back scaled; a best point outside the range cannot be loaded |
| C16 | `set_opt_map` checks the limits of the previous map, not of the new one |
| C18 | a raising parameter update leaves the Hamiltonians of the old parameters behind |
| C24, C26 | `tf_dm_to_vec` stacks columns, while the superoperators are written for stacked rows |
| C29 | `compute_states` shifts the time stamps by the previous gate only |
| C30 | `rk5` and `tsit5` finish with the weights of the embedded lower-order formula |
| C36 | the dressed-state assignment can lose a state; an imaginary overlap gets sign 0 |
| C40 | all collapse operators of a subsystem are added into one operator |
| C41 | `Transmon` decays at half the rate `1/T1` |
| C45, C47 | a device naming a source twice is called cyclic; a chain with two unused outputs is accepted, depending on dictionary order |
| C48 | an instruction without a carrier gets the local-oscillator signal of the previous one |
| C51 | the legacy response convolution is delayed by one sample |
| C52 | `DC_Offset` also shifts the time stamps |
| C53, C54 | a triggered component counts its start twice; `auto_adjust_t_end` may not terminate |
| C58 | `EnvelopeNetZero` takes other arguments than the caller passes |
| C61 | an empty index list gives the infidelity -3 |
| C66 | echo sequences of odd length have one wait less |
| C70, C71 | goals above 9876543210.12 are never recorded; the best-point file is truncated before it is rewritten |
| C72 | gradients are keyed by the printed parameter vector, so different vectors share an entry |
| C73 | `fct_to_min` logs unfolded values and only the first entry of vector parameters |
| C74, C75 | `random_sample` is redrawn for the validation set; `all` ignores the batch size, zero selects everything |
| C77, C116-C118 | `stop_at_sigma` is truncated to an integer; `stop_at_convergence` fires one generation early; `batch_noise` has no effect; the options are removed from the caller's dictionary |
| C78 | reversed bounds with probes collapse the scan |
| C79-C81, C119 | counts need not sum to the shots; `flip_labels` merges labels; the first run refuses every initial vector and later runs keep it; unequal level counts lose states |
| C82 | the derivative envelopes of the plain Gaussian have the wrong sign |
| C83 | a trapezoid with slopes longer than the pulse leaves [0, 1] |
| C84, C124 | potential derivatives above the fourth drop the flux signal; the table of minima goes stale |
| C86 | `eng_num` loses the sign beyond its prefix table |
| C87 | limits given in the wrong order are accepted and swap the range |
| C88, C108 | `tf_state_to_dm` and `expect_oper` omit the complex conjugation |
| C96 | the AWG mask ends at 0.999 of the pulse length |
| C98 | an unknown gate name gives an all-ones ideal gate |
| C100, C101, C103, C105 | gate-set figures with a proper index, `lindbladian_average_infid`, `epc_analytical` and padded benchmarking data raise |
| C106, C107 | a refit uses the wrong populations; the state overlap takes entrywise square roots |
| C109-C111 | open systems start from a matrix; switching back to closed dynamics keeps the density matrix; named propagation methods fail |
| C122, C123 | the end sample of a plateau is not mapped; some shapes return a matrix or raise |
| C125 | `compute_propagators` with a dephasing strength raises |
| C126 | a refused `set_opt_map` still decides whether the model is rebuilt; without a model the update raises; an explicit map is ignored |
| C127 | tuples come back as lists; dictionaries with reserved keys do not come back |
| C128, C129 | start time, samples and objects of gates are lost; a copied gate keeps the ideal unitary of the original |
| C130 | `Crosstalk`, `LONoise`, `PinkNoise`, `CouplingTuning` and keyword settings of `LO` and `DAC` are not restored |
| C131, C132 | model settings are not written; subsystems with equal names are merged; `Model(subsystems)` without couplings raises |
| C133 | remembered timings survive parameter changes; after `get_full_gate_length` the carriers of the last channel end when they start |
| C134, C135 | equal names, dashes in names and options named like parameters hide parameters; an identifier named twice raises |
| C136 | the partial propagators of `rk4_unitary` are transposed; the last sample is left out |
| C137 | `pwc` raises with an excitation limit and separate controls, and for open systems without separate controls |
| C139 | `pwc_trott_drift` applies the drift twice (`tf.identity` copies its argument) |
| C140 | `tf_expm_dynamic` can stop far from the exponential |
| C142 | `LO.process` drops phase or frequency noise if both are set |
| C143 | `Pink_Noise` combines a natural logarithm with base ten, so the slowest rate is `N ** ln 10` |
| C144 | step-response filters use absolute time stamps, so their effect depends on the start of the instruction |
| C145 | `HighpassFilter` replaces the centre tap by one instead of adding one and lets constants pass |
| C146 | algorithms without gradient ignore the noise map of `OptimalControlRobust`; a refused noise value leaves the noise parameter changed; all evaluations of one mean are logged under the same number |
| C147 | `Sensitivity` leaves a swept parameter at its last point during the following sweeps |
| C148 | `learn_model` validates the last evaluated parameters, not the best ones |
| C149 | if a learned parameter is also in the data set's opt_map, the data set overwrites the proposal |
| C151 | the excitation operator is multiplied with `exp(-ħω/kT)` instead of its square root, so an element thermalizes at half of the given temperature; for a transmon `ω` is the frequency at zero flux |
| C153 | at half a flux quantum of a symmetric SQUID the sextic prefactor of the expanded transmon is `0 * inf` |
| C154 | the local operators of the expanded transmon have one level less than the element (the range ends at the square of the largest entry); with three levels or fewer the fit indexes a missing energy |
| C155 | `CShuntFluxQubitCos` uses the antisymmetric charge operator linearly instead of squared, so its Hamiltonian is not Hermitian |
| C157 | with `use_t_before` the gradient tape also differentiates the value before the first sample, so the DRAG quadrature of the first two samples is wrong |
| C158 | `gaussian`, `drag` and `flattop_risefall_1ns` replace a parameter object whenever they are evaluated; a parameter map keeps the old one |
| C159 | `delta_pulse` looks for the sample nearest to one nanosecond after the time, and fills all samples of a tie |
| C161 | a circuit without gates raises an IndexError; a measurement before a gate reports the state after it |
| C162 | an update gate changes the circuits after it and later jobs; it overrides the run options although the comment says the opposite; parameters passed without `opt_map` raise in every later call |
| C164 | `cx` in the gate table has the second target as control, the other controlled gates the first |
| C166 | the normalised binomial likelihood is negative between whole counts; the multinomial one is -3/2 at a perfect match |
| C167 | quick setups raise a KeyError; `adjust_exp`, lists of initial points and initial points for C2/C3/SET raise a TypeError; a dictionary can be run once |
| C168 | a virtual Z gate does nothing on states with another subsystem in a higher level (the identity is padded with zeros); it raises for open systems |
| C169 | propagation method, selected gates and QASM format are not stored; `from_dict` takes `sim_res` out of its argument |
| C170 | a two-qubit gate whose qubits share a line drives only the second; absolute file names with `base_dir=None` raise a TypeError; `sideband` is taken out of the argument |
| C172 | `tolist` and comparisons include the factor of the unit, `float`, indexing and arrays do not: the quantity 1 (unit pi) is not equal to 1; vectors with one entry are nested twice and index 0 returns the vector; the length of a matrix counts entries |
| C173 | `set_opt_map` keeps the list of the caller, later changes to it bypass all checks; `get_parameter_dict` merges groups with the same first parameter |
| C174 | `get_qubit_freqs` reads the dressed drift, which `update_model` does not renew with `dressed=False`: frequencies of an earlier model are reported |
| C175 | the ordering of `Model_basis_change` permutes a permuted basis back, so that the basis change is undone, and drops phases |
| C176 | `get_sparse_Hamiltonian` raises without an excitation limit and after it is lifted; `get_sparse_Hamiltonians` always raises |
| C177 | 14 of 21 registered goal functions (RB, leakage_RB, orbit_infid, epc_analytical, ...) can be chosen by name, but every evaluation raises TypeError; for open systems the prefix rule makes state_transfer_infid_set, state_transfer_from_states and all full names of open-system functions unknown |
| C178 | `callback_fids` are looked up and never evaluated |
| C179 | `self.evaluation += 1` is inside `@tf.function`: every evaluation of an optimal control run is logged as number 1, and as 0 in a robust run |
| C180 | `TensorBoardLogger` raises KeyError 'time' with `OptimalControl`, TypeError for vector parameters (`x is float or np.float64` is always true), and writes all evaluations of a robust run to step 0 |
| C181 | `show_table` raises for vector parameters; with `--watch` the file is read once and from the second display on the goal is -1 at time 0 |
| C182 | `adaptive_scan` raises without probes, with numbers as probes, with the initial point of several parameters, and in a second run |
| C183 | `tf_sgd` returns the last point, with success, even if it is worse than the start; two evaluations per iteration |
| C184 | `cma_pre_lbfgs` writes into the options of the user: shared options changed before a second run have no effect |
| C185 | `oneplusone` cannot be called by any optimizer; `tf_adam`, `tf_rmsprop`, `tf_adadelta` are not registered; `lbfgs_grad_free` uses BFGS |
| C186 | `replace_logdir` looks for `recent` in the working directory (private attribute of the base class), does not call `set_logdir`, raises for other loggers, and a default run ignores it |
| C187 | `log_setup` with run name `recent` raises after making the directory |
| C188 | storing propagators in `OptimalControl` fails: they are placeholders of the trace |
| C189 | when the measurement raises, the data set is left as a stream of pickles; `read_data` loads only the first entry and learning raises |
| C190 | a second `optimize_controls` of the same object keeps the best goal but has a new directory: without improvement it ends with FileNotFoundError; gradient algorithms call `.numpy()` on a NumPy goal |
| C191 | a second noise device forgets the record of the first, `DC_Offset` adds its offset to the record, `VoltsToHertz` drops it; `LONoise` defines `proces` instead of `process` |
| C192 | `FluxTuningLinear.frequency` reads the parameter `phi`, which the documented constructor does not ask for; its result ignores `phi_0` and `Phi` and leaves the range of the SQUID |
| C193 | `Response.process` takes the times from its own resolution, samples from its input; delayed by one sample compared with `ResponseFFT` |
| C194 | `lookup_gate` ignores `params` for all gates but VZ, cannot address instructions without targets, tells lists and tuples apart; names with brackets collide; `as_openqasm` takes the truth value of a matrix (ValueError) or adds a keyword `lookup_gate` does not have |
| C195 | perfect gates have dimension 2^n and cannot be applied to states of a model with more levels |
| C196 | `set_lindbladian(True)` raises for qubits without decay times but keeps the flag; later parameter changes then raise before the dressed Hamiltonians are renewed; `Resonator.get_Lindbladian` returns None |
| C197 | `_get_hs_of_t_ts_controlled` uses the times of the last channel and compares none; `_get_hs_of_t_ts` drops the first time but keeps its Hamiltonian and compares a variance (s²) with 1e-5·dt (s) |
| C198 | `num3str` prints -1e24 as 1000.000 Z and 1e-30 as 0.000 z |
| C200 | With `noise` the lowest noisy value decides, so that a worse point than the initial one is returned; without `init_point` the initial point is not compared at all. |
| C201 | flux qubits drop `d` and `anhar`; `Fluxonium` without `params` calls `None.pop`; `SNAIL` overwrites `freq` and `beta` of the dictionary with None, so that one read from a file is unusable; `CShuntFluxQubit` pops `inputs` from the caller's dictionary and keeps it as a parameter; elements built from one dictionary share their quantities |
| C203 | `ode_solver` returns the state after step `i` together with the time at which step `i` starts |
| C204 | `Hs_of_t` uses the slice centres as the starts of the steps: the solvers start half a slice late and end half a slice late, which makes them first-order methods for time-dependent signals, below the second order of `pwc` |
| C206 | `average_infid` counts a part of the leaked population as success: the difference is the mean leakage divided by `2^n+1` |
| C207 | `tf_choi_to_chi` gives the transpose of the chi matrix, with the factor of the squared dimension left in |
| C208 | `xy_basis` with `zp` is the first excited state, the eigenstate of `Z` with eigenvalue -1 |
| C210 | `backends(filters=f)` ignores `f` (`C210_false_filters`, `C210_false_witness`) |
| C211 | `tf_kron` raises with two batch dimensions although documented to work with batch dimensions (`C211_false_two_batches`) |
| C212 | `RB` reports an error per gate that assumes four gates per Clifford (mean: 9/4) and is too small (`C212_false_epg`, `C212_epg_slope`) |
| C214 | `set_parameters` states limits with the factor of the unit, next to a value without it (`C214_false_units`) |
| C214 | refusing an array with one entry raises `TypeError` while formatting the message (`C214_false_single`) |
| C214 | unknown parameters raise `KeyError` (the handler expects `ValueError`); the message of `check_limits` lacks the `f` (`C214_false_unknown`, `C214_false_limits`) |
| C215 | only the last pulse of a line with a non-zero amplitude decides about the frequency of its frame (`C215_false_two`) |
| C215 | with a sideband, an amplitude of exactly zero switches the frame to the carrier: waiting turns the qubit (`C215_false_zero`, `C215_false_idle`) |
| C215 | the frame needs a component called `carrier`, the local oscillator does not (`C215_false_name`) |
| C216 | `deprecated` does not keep the name: shapes `envelopes.gaussian` and `envelopes.drag` are written as `deprecated_func` and cannot be read (`C216_false_deprecated`, `C216_false_gaussian`) |
| C216 | functions of the user with the name of a library function are replaced by it when read; `FluxTuningLinear` is not registered (`C216_false_user`, `C216_false_linear`) |
| C217 | `jsonify_list` loses `transform_arrays` in recursive calls (`C217_false_keep`) |
| C220 | `Quantity.add` and `subtract` (c3/c3objs.py:234-238) pass `get_value()`, which contains the unit factor, to `set_value`, which multiplies by it again (adding zero to 5 (2 pi) Hz with limits 0 and 10 raises; adding zero to 1 (2 pi) Hz gives 2 pi (2 pi) Hz) |
| C221 | `trapezoid` with 5 risefall longer than t_final (c3/libraries/envelopes.py:201-224): the second slope overwrites the first (area 1/5 for length and risefall 1) |
| C224 | the default value of `options` is one dictionary for all optimizers of a class (c3/optimizers/sensitivity.py:65, 107), so a sweep writes its bounds into the options of others |
| C226 | a waiting transmon does not relax with its T1: it keeps exp(-t/(2*T1)) of its excitations (chip.py:438) |
| C228 | `leakage_RB` fits the survival with `A + B_leak * r_leak ** len + C * r ** len`, keeping `B_leak` of the fit of the computational population; the ground state has half of that population, so the term should be `B_leak / 2` (or a free parameter), and with leakage no choice of `r`, `A`, `C` matches (c3/libraries/fidelities.py:698-699) |
| C230 | `disable_flip_labels` says that labels are flipped to Qiskit's order by default, but the call of `flip_labels` is commented out: the counts have qubit 0 as most significant digit; with more than two levels the hex labels count in the base of the levels, so that they do not read as bit strings (c3/qiskit/c3_backend.py:142-148, 562-571) |
| C231 | `get_average_amp` of a line that the current instruction does not drive still reports an earlier instruction, since signals are never removed; `log_shapes` calls `.numpy()` on a dictionary and raises (c3/generator/devices.py:1193-1197, 1221-1229) |
| C234 | `state_transfer_infid` is one minus the modulus of the overlap and has no derivative where the overlap vanishes, for example at zero amplitude when a qubit is to be flipped (c3/libraries/fidelities.py:120-149, c3/utils/tf_utils.py `tf_ketket_fid`) |
| C235 | `optimize_controls` loads the best point into the parameter map but leaves the propagators of the last evaluation in the experiment, so circuits evaluated without calling `compute_propagators` again use other gates (c3/optimizers/optimalcontrol.py:187-198) |
| C236 | `T1_sequence` waits with `Id`, `ramsey_sequence` and `ramsey_echo_sequence` with `id`, so one wait gate does not serve all three (c3/utils/qt_utils.py:381, 406, 434) |
| C236 | with both T1 and T2* given, the excited population feeds the coherences, and a Ramsey sequence shows another curve than the one of these times (c3/libraries/chip.py:240-242, 465-467) |
| C239 | a qubit prepared by `initialise` at its own temperature cools while it waits, since its collapse operators lead to the thermal state at half the temperature (C151); with a temperature the relaxation sequence decays with `T1/(1+b²)`, `b` the Boltzmann factor |
| C240 | `RB` computes the error per gate with four gates per Clifford, while `cliffors_per_gate` is 9/4 (and is the number of gates per Clifford, not of Cliffords per gate): for small errors of any kind the result is 9/16 of the mean infidelity of the gates |
| C241 | ever finer steps of `pwc_trott_drift` converge to the evolution with twice the drift Hamiltonian |
| C242 | `set_chains` stores the new chains before checking them: after an exception they are used, in the order of the old chains, and channels they do not name are gone |
| C243 | at a limit the gradient of a parameter is replaced by 1e-10: an optimization started with a control at its limit sees no reason to move it, although the goal falls towards the inside |
| C244 | noise on a parameter that is optimized as well is overwritten by the proposal: all goals are equal, the reported spread is zero, and afterwards the parameter has its value from before the proposal |
| C245 | Ramsey data do not tell a qubit from one that makes a full turn more per wait, or from one on the other side of the carrier: the estimators are zero for wrong frequencies |
| C246 | with targets that have different `opt_map`s, gate parameters set for one data set stay set while others are simulated: the goal depends on the order of the data and on earlier evaluations |
| C258 | no instruction with an `EnvelopeNetZero` can be played: its `get_shape_values` takes one argument, `get_awg_signal` passes two |

## Not modelled

* Plotting, display code, the `examples` and `test` directories, logging text and TensorBoard output.
* Parsing of hjson files (the parsed dictionary is the input of the model).
* External optimizers (CMA-ES, L-BFGS, ...): an arbitrary sequence of proposals.
* TensorFlow's automatic differentiation: an arbitrary gradient value.

