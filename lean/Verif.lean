import Verif.Quantity.Model
import Verif.Quantity.Lemmas
import Verif.Quantity.Props
import Verif.ParamMap.Model
import Verif.ParamMap.Spec
import Verif.ParamMap.Lemmas
import Verif.ParamMap.Props
import Verif.Fold.Model
import Verif.Fold.Props
import Verif.Propagation.Model
import Verif.Propagation.Unitary
import Verif.Propagation.Lindblad
import Verif.Propagation.RungeKutta
import Verif.Propagation.Trajectory
import Verif.Propagation.Positive
import Verif.Propagation.Sampling
import Verif.Chain.Model
import Verif.Chain.Props
import Verif.Chain.Eval
import Verif.Chain.Memory
import Verif.Devices.Convolve
import Verif.Devices.Grid
import Verif.Devices.Mix
import Verif.Timing.Model
import Verif.Timing.Props
import Verif.Timing.Awg
import Verif.Hilbert.Model
import Verif.Hilbert.Labels
import Verif.Hilbert.Embed
import Verif.Hilbert.Hams
import Verif.Hilbert.System
import Verif.Hilbert.Dressed
import Verif.Hilbert.Frame
import Verif.Hilbert.Decay
import Verif.Hilbert.Thermal
import Verif.Gates.Tables
import Verif.Gates.Clifford
import Verif.Gates.Insert
import Verif.Gates.Sequences
import Verif.Gates.Parametric
import Verif.Fidelity.Project
import Verif.Fidelity.Overlap
import Verif.Fidelity.Average
import Verif.Fidelity.Benchmark
import Verif.Experiment.Evaluate
import Verif.Experiment.Init
import Verif.Experiment.Readout
import Verif.Experiment.Compute
import Verif.Optim.Log
import Verif.Optim.Logged
import Verif.Optim.Sampling
import Verif.Optim.Estimators
import Verif.Optim.Algorithms
import Verif.Qiskit.Backend
import Verif.Envelopes.Gauss
import Verif.Envelopes.Shapes
import Verif.Chip.Potential
import Verif.Utils.Misc
import Verif.Config.Dict
import Verif.Config.Json
import Verif.Config.Instruction
import Verif.Config.Devices
import Verif.Config.Model
import Verif.Timing.Cache
import Verif.ParamMap.Ids
import Verif.Propagation.Rk4Unitary
import Verif.Propagation.Options
import Verif.Propagation.Series
import Verif.Devices.Drive
import Verif.Optim.Learn
import Verif.Hilbert.Energies
import Verif.Hilbert.Balance
import Verif.Chip.Circuit
import Verif.Envelopes.Drag
import Verif.Qiskit.Run
import Verif.Optim.Likelihood
import Verif.Experiment.RunCfg
import Verif.Experiment.Qasm
import Verif.Experiment.Setup
import Verif.Fidelity.Sets
import Verif.Quantity.Views
import Verif.ParamMap.Reports
import Verif.Hilbert.Frequencies
import Verif.Optim.GoalFuncs
import Verif.Optim.Loggers
import Verif.Optim.Scans
import Verif.Optim.LogDirs
import Verif.Optim.Calibration
import Verif.Devices.Noise
import Verif.Experiment.Lookup
import Verif.Chip.Switch
import Verif.Propagation.Times
import Verif.Utils.Printing
import Verif.Experiment.EndToEnd
import Verif.Optim.Evolution
import Verif.Chip.Construct
import Verif.Propagation.Converge
import Verif.Propagation.HsOfT
import Verif.Propagation.Order
import Verif.Propagation.SolverConverge
import Verif.Fidelity.Haar
import Verif.Fidelity.Chi
import Verif.Fidelity.States
import Verif.Propagation.Exists
import Verif.Propagation.Average
import Verif.Experiment.Resonant
import Verif.Qiskit.Provider
import Verif.Propagation.TfKron
import Verif.Fidelity.Twirl
import Verif.Fidelity.CliffordTwirl
import Verif.Fidelity.CliffordMean
import Verif.Fidelity.Decay
import Verif.Fidelity.Sensitive
import Verif.ParamMap.Refuse
import Verif.Experiment.FrameFreq
import Verif.Config.Registry
import Verif.Utils.Small
import Verif.Experiment.ResonantInfid
import Verif.Experiment.FromInstruction
import Verif.Envelopes.Areas
import Verif.Experiment.EnvelopeGates
import Verif.Experiment.Circuits
import Verif.Optim.Constructors
import Verif.Experiment.WeakNoise
import Verif.Experiment.Waiting
import Verif.Experiment.NoisyCircuits
import Verif.Fidelity.Leakage
import Verif.Experiment.GoalCircuits
import Verif.Qiskit.Counts
import Verif.Devices.Amplitude
import Verif.Propagation.Kraus
import Verif.Experiment.OpenGoal
import Verif.Experiment.Smooth
import Verif.Experiment.Optimized
import Verif.Experiment.Decays
import Verif.Experiment.Exchange
import Verif.Experiment.Idle
import Verif.Experiment.Warm
import Verif.Fidelity.PerGate
import Verif.Propagation.Trotter
import Verif.Chain.Generator
import Verif.Optim.Folded
import Verif.Optim.Robust
import Verif.Experiment.Learnable
import Verif.Optim.Predict
import Verif.Experiment.Chevron
import Verif.Propagation.Observables
import Verif.Experiment.Selection
import Verif.Hilbert.Local
import Verif.Experiment.Separate
import Verif.Experiment.Units
import Verif.Experiment.Reorder
import Verif.Experiment.Merit
import Verif.Experiment.Listing
import Verif.Experiment.Backwards
import Verif.Experiment.Signs
import Verif.Experiment.Limits
import Verif.Timing.Kinds
import Verif.Experiment.Preparation
import Verif.Experiment.Cutting
import Verif.Experiment.Mixing
import Verif.Experiment.LastFrame
import Verif.Experiment.WeakDrive
import Verif.Experiment.Independent
import Verif.Experiment.LeftOut
import Verif.Experiment.Mixture
import Verif.Experiment.Recurrence
import Verif.Experiment.Repetition
import Verif.Experiment.Stationary
import Verif.Experiment.Settle
import Verif.Experiment.Ergodic
import Verif.Experiment.ReadoutNear
