import Mathlib.Data.List.Basic
import Mathlib.Data.List.Nodup

/-!
# C216: Library functions are found under the names they are written with

Functions and classes of the libraries are collected in dictionaries by decorators: c3/libraries/envelopes.py:14-22,
c3/libraries/hamiltonians.py:5-13, c3/libraries/chip.py:16-24, c3/generator/devices.py:12-20, c3/signal/pulse.py:11-19,
c3/libraries/algorithms.py:17-25, c3/libraries/estimators.py:8-16, c3/libraries/sampling.py:6-14,
c3/libraries/tasks.py:9-17, c3/libraries/fidelities.py:35-81, c3/libraries/propagation.py:18-68. Two envelopes are also
marked as deprecated (c3/utils/utils.py:130-160). Files refer to them by `__name__` (c3/signal/pulse.py:78,
c3/libraries/chip.py:1149) and look them up again (c3/signal/pulse.py:43-46, c3/libraries/chip.py:1132-1138).

Simplified: the body of a function is an arbitrary value that stands for its behaviour; the warning of a deprecated
function is not modelled (C-level state of the module `warnings`).
-/

namespace C3.Config.Registry

/-! ## Model -/

/-- A function object: as defined, with its name and body, or the closure made by `deprecated` around a function. -/
inductive Func (B : Type) where
  | plain (name : String) (body : B)
  | wrapper (f : Func B)

variable {B : Type}

/-- `__name__`. The closure is called `deprecated_func` whatever it wraps (c3/utils/utils.py:149; no
`functools.wraps`). -/
def Func.name : Func B → String
  | .plain n _ => n
  | .wrapper _ => "deprecated_func"

/-- What a call does (c3/utils/utils.py:156: the closure calls the function). -/
def Func.run : Func B → B
  | .plain _ b => b
  | .wrapper f => f.run

/-- The decorators. -/
inductive Deco where
  /-- `..._reg_deco` -/
  | register
  /-- `deprecated(message)` -/
  | deprecated
  deriving DecidableEq

/-- `d[k] = v` on a dictionary. -/
def insert {V : Type} (k : String) (v : V) : List (String × V) → List (String × V)
  | [] => [(k, v)]
  | x :: l => if x.1 = k then (k, v) :: l else x :: insert k v l

/-- A module being executed: the dictionary of the registry and the attributes of the module. -/
structure Module (B : Type) where
  registry : List (String × Func B)
  attrs : List (String × Func B)

/-- c3/libraries/envelopes.py:17-22 `env_reg_deco` (the others are the same), c3/utils/utils.py:130-160 `deprecated`. -/
def Deco.apply (d : Deco) (f : Func B) (r : List (String × Func B)) : Func B × List (String × Func B) :=
  match d with
  | .register => (f, insert f.name f r)
  | .deprecated => (.wrapper f, r)

/-- Decorators are applied from the last one to the first one. -/
def applyAll : List Deco → Func B → List (String × Func B) → Func B × List (String × Func B)
  | [], f, r => (f, r)
  | d :: ds, f, r => let (f', r') := applyAll ds f r; d.apply f' r'

/-- `@d1 @d2 ... def name(...)`. -/
structure Def (B : Type) where
  name : String
  body : B
  decos : List Deco

/-- Execution of a definition. -/
def Def.exec (x : Def B) (m : Module B) : Module B :=
  let (f, r) := applyAll x.decos (.plain x.name x.body) m.registry
  ⟨r, insert x.name f m.attrs⟩

/-- Execution of a module. -/
def load (xs : List (Def B)) : Module B := xs.foldl (fun m x => x.exec m) ⟨[], []⟩

/-- What the constructors accept for `shape` and `hamiltonian_func`: a name or a function. -/
inductive Given (B : Type) where
  | name (s : String)
  | func (f : Func B)

/-- c3/signal/pulse.py:43-46, c3/libraries/chip.py:1132-1138; `none` is the `KeyError`. -/
def construct (m : Module B) : Given B → Option (Func B)
  | .name s => m.registry.lookup s
  | .func f => some f

/-- What is written to a file for such a function (c3/signal/pulse.py:78, c3/libraries/chip.py:1149), and read again. -/
def reread (m : Module B) (f : Func B) : Option (Func B) := construct m (.name f.name)

/-! ## Lemmas -/

theorem lookup_insert {V : Type} (k k' : String) (v : V) (l : List (String × V)) :
    (insert k v l).lookup k' = if k' = k then some v else l.lookup k' := by
  induction l with
  | nil =>
    by_cases h : k' = k
    · simp [insert, h]
    · have : (k' == k) = false := by rw [beq_eq_false_iff_ne]; exact h
      simp [insert, List.lookup_cons, h, this]
  | cons x l ih =>
    unfold insert
    by_cases hx : x.1 = k
    · rw [if_pos hx, List.lookup_cons]
      by_cases h : k' = k
      · simp [h]
      · have : (k' == k) = false := by rw [beq_eq_false_iff_ne]; exact h
        have h2 : (k' == x.1) = false := by rw [hx]; exact this
        rw [this, if_neg h, List.lookup_cons, h2]
    · rw [if_neg hx, List.lookup_cons, List.lookup_cons, ih]
      by_cases h : k' = x.1
      · have : k' ≠ k := fun e => hx (h ▸ e)
        simp [h, hx]
      · have : (k' == x.1) = false := by rw [beq_eq_false_iff_ne]; exact h
        rw [this]

/-- A definition of the library: registered under its own name, possibly marked as deprecated afterwards. -/
def Def.Lib (x : Def B) : Prop := x.decos = [.register] ∨ x.decos = [.deprecated, .register]

/-- The attribute of the module. -/
def Def.attr (x : Def B) : Func B :=
  if x.decos = [.register] then .plain x.name x.body else .wrapper (.plain x.name x.body)

theorem exec_lib (x : Def B) (m : Module B) (h : x.Lib) :
    x.exec m = ⟨insert x.name (.plain x.name x.body) m.registry, insert x.name x.attr m.attrs⟩ := by
  rcases h with h | h <;> simp [Def.exec, h, applyAll, Deco.apply, Def.attr, Func.name]

theorem load_lookup (xs : List (Def B)) (m : Module B) (hl : ∀ x ∈ xs, x.Lib) (hn : (xs.map Def.name).Nodup) :
    (∀ x ∈ xs, (xs.foldl (fun m x => x.exec m) m).registry.lookup x.name = some (.plain x.name x.body) ∧
      (xs.foldl (fun m x => x.exec m) m).attrs.lookup x.name = some x.attr) ∧
    ∀ k, k ∉ xs.map Def.name → (xs.foldl (fun m x => x.exec m) m).registry.lookup k = m.registry.lookup k ∧
      (xs.foldl (fun m x => x.exec m) m).attrs.lookup k = m.attrs.lookup k := by
  induction xs generalizing m with
  | nil => simp
  | cons y ys ih =>
    rw [List.map_cons, List.nodup_cons] at hn
    obtain ⟨h1, h2⟩ := ih (y.exec m) (fun x hx => hl x (List.mem_cons_of_mem _ hx)) hn.2
    have hy := exec_lib y m (hl y List.mem_cons_self)
    rw [List.foldl_cons]
    constructor
    · intro x hx
      rcases List.mem_cons.1 hx with rfl | hx
      · obtain ⟨h3, h4⟩ := h2 x.name hn.1
        rw [h3, h4, hy, lookup_insert, lookup_insert, if_pos rfl, if_pos rfl]
        exact ⟨rfl, rfl⟩
      · exact h1 x hx
    · intro k hk
      rw [List.map_cons, List.mem_cons, not_or] at hk
      obtain ⟨h3, h4⟩ := h2 k hk.2
      rw [h3, h4, hy, lookup_insert, lookup_insert, if_neg hk.1, if_neg hk.1]
      exact ⟨rfl, rfl⟩

/-! ## C216 -/

/-- **C216**, names: a library with different names has exactly these names in its registry, each with the function of
that name; a name that is not among them raises. -/
theorem C216_names (xs : List (Def B)) (hl : ∀ x ∈ xs, x.Lib) (hn : (xs.map Def.name).Nodup) :
    (∀ x ∈ xs, ∃ f, construct (load xs) (.name x.name) = some f ∧ f.name = x.name ∧ f.run = x.body) ∧
    ∀ k, k ∉ xs.map Def.name → construct (load xs) (.name k) = none := by
  obtain ⟨h1, h2⟩ := load_lookup xs ⟨[], []⟩ hl hn
  refine ⟨fun x hx => ⟨.plain x.name x.body, (h1 x hx).1, rfl, rfl⟩, fun k hk => ?_⟩
  exact (h2 k hk).1

/-- **C216**, calls: the attribute of the module and the entry of the registry do the same, deprecated or not. -/
theorem C216_calls (xs : List (Def B)) (hl : ∀ x ∈ xs, x.Lib) (hn : (xs.map Def.name).Nodup) (x : Def B)
    (hx : x ∈ xs) : ∃ f g, (load xs).attrs.lookup x.name = some f ∧ construct (load xs) (.name x.name) = some g ∧
      f.run = x.body ∧ g.run = x.body := by
  obtain ⟨h1, _⟩ := load_lookup xs ⟨[], []⟩ hl hn
  refine ⟨x.attr, _, (h1 x hx).2, (h1 x hx).1, ?_, rfl⟩
  unfold Def.attr
  split <;> rfl

/-- **C216**, files: what was looked up by name is found again after writing and reading, and so is every attribute of
the module that is not deprecated. Missing: deprecated attributes and functions outside of the library. -/
theorem C216_reread_partial (xs : List (Def B)) (hl : ∀ x ∈ xs, x.Lib) (hn : (xs.map Def.name).Nodup) :
    (∀ s f, construct (load xs) (.name s) = some f → reread (load xs) f = some f) ∧
    ∀ x ∈ xs, x.decos = [.register] → ∃ f, (load xs).attrs.lookup x.name = some f ∧
      reread (load xs) f = some f := by
  obtain ⟨h1, h2⟩ := load_lookup xs ⟨[], []⟩ hl hn
  constructor
  · intro s f hf
    by_cases hs : s ∈ xs.map Def.name
    · obtain ⟨x, hx, rfl⟩ := List.mem_map.1 hs
      have := (h1 x hx).1
      have hf' : (load xs).registry.lookup x.name = some f := hf
      rw [show (load xs).registry.lookup x.name = some (.plain x.name x.body) from this] at hf'
      cases hf'
      exact this
    · have := (h2 s hs).1
      have hf' : (load xs).registry.lookup s = some f := hf
      rw [show (load xs).registry.lookup s = none from this] at hf'
      cases hf'
  · intro x hx hd
    have ha : x.attr = .plain x.name x.body := by simp [Def.attr, hd]
    exact ⟨.plain x.name x.body, ha ▸ (h1 x hx).2, (h1 x hx).1⟩

/-- The claim "an envelope with a shape of the library can be written and read" is false for deprecated shapes taken
from the module: the file says `deprecated_func`, which is not in the registry. -/
theorem C216_false_deprecated (xs : List (Def B)) (hl : ∀ x ∈ xs, x.Lib) (hn : (xs.map Def.name).Nodup)
    (hw : "deprecated_func" ∉ xs.map Def.name) (x : Def B) (hx : x ∈ xs) (hd : x.decos = [.deprecated, .register]) :
    ∃ f, (load xs).attrs.lookup x.name = some f ∧ construct (load xs) (.func f) = some f ∧
      f.name = "deprecated_func" ∧ reread (load xs) f = none := by
  obtain ⟨h1, h2⟩ := load_lookup xs ⟨[], []⟩ hl hn
  have ha : x.attr = .wrapper (.plain x.name x.body) := by simp [Def.attr, hd]
  exact ⟨.wrapper (.plain x.name x.body), ha ▸ (h1 x hx).2, rfl, rfl, (h2 _ hw).1⟩

/-- The claim is false for functions of the user: one that has the name of a library function is silently replaced by
it, one with another name cannot be read. -/
theorem C216_false_user (xs : List (Def B)) (hl : ∀ x ∈ xs, x.Lib) (hn : (xs.map Def.name).Nodup) (n : String) (b : B) :
    construct (load xs) (.func (.plain n b)) = some (.plain n b) ∧
    (n ∉ xs.map Def.name → reread (load xs) (.plain n b) = none) ∧
    ∀ x ∈ xs, x.name = n → x.body ≠ b → ∃ f, reread (load xs) (.plain n b) = some f ∧ f.run ≠ b := by
  obtain ⟨h1, h2⟩ := C216_names xs hl hn
  refine ⟨rfl, fun h => h2 n h, fun x hx e hb => ?_⟩
  obtain ⟨f, hf, _, hr⟩ := h1 x hx
  exact ⟨f, by rw [← e]; exact hf, by rw [hr]; exact hb⟩

/-! ## The libraries -/

/-- The envelopes in the order of c3/libraries/envelopes.py (25-566) and whether they are deprecated. -/
def envelopes : List (String × Bool) :=
  [("no_drive", false), ("pwc", false), ("pwc_shape", false), ("pwc_shape_plateau", false), ("pwc_symmetric", false),
    ("delta_pulse", false), ("fourier_sin", false), ("fourier_cos", false), ("rect", false), ("trapezoid", false),
    ("flattop_risefall", false), ("flattop", false), ("flattop_cut", false), ("flattop_cut_center", false),
    ("slepian_fourier", false), ("flattop_risefall_1ns", false), ("gaussian_sigma", false), ("gaussian", true),
    ("cosine", false), ("cosine_flattop", false), ("gaussian_nonorm", false), ("gaussian_der_nonorm", false),
    ("gaussian_der", false), ("drag_sigma", false), ("drag", true), ("drag_der", false), ("flattop_variant", false)]

/-- The registered devices of c3/generator/devices.py (150-1135). -/
def devices : List String :=
  ["Readout", "VoltsToHertz", "Crosstalk", "DigitalToAnalog", "Filter", "CouplingTuning", "FluxTuning", "Response",
    "ResponseFFT", "StepFuncFilter", "ExponentialIIR", "HighpassExponential", "SkinEffectResponse", "HighpassFilter",
    "Mixer", "LONoise", "Additive_Noise", "DC_Noise", "Pink_Noise", "DC_Offset", "LO", "AWG"]

/-- The other registries: c3/libraries/chip.py, c3/libraries/hamiltonians.py, c3/signal/pulse.py,
c3/libraries/algorithms.py, c3/libraries/sampling.py, c3/libraries/tasks.py, c3/libraries/estimators.py,
c3/libraries/fidelities.py, and the solvers, steps, unitary and state providers of c3/libraries/propagation.py. -/
def others : List (List String) :=
  [["Qubit", "Resonator", "Transmon", "TransmonExpanded", "CShuntFluxQubitCos", "CShuntFluxQubit", "Fluxonium", "SNAIL",
      "LineComponent", "Coupling", "Drive", "Coupling_Drive"],
    ["resonator", "duffing", "third_order", "int_XX", "int_YY", "x_drive", "y_drive", "z_drive"],
    ["Envelope", "EnvelopeDrag", "EnvelopeNetZero", "Carrier"],
    ["single_eval", "grid2D", "sweep", "adaptive_scan", "tf_sgd", "lbfgs", "lbfgs_grad_free", "cmaes", "cma_pre_lbfgs",
      "gcmaes", "oneplusone"],
    ["all", "from_start", "from_end", "even", "random_sample", "high_std", "even_fid"],
    ["InitialiseGround", "ConfusionMatrix", "MeasurementRescale"],
    ["mean_dist", "median_dist", "rms_dist", "mean_sim_stds_dist", "rms_sim_stds_dist", "mean_exp_stds_dist",
      "rms_exp_stds_dist", "std_of_diffs", "neg_loglkh_binom", "neg_loglkh_binom_norm", "neg_loglkh_gauss",
      "neg_loglkh_gauss_norm", "neg_loglkh_gauss_norm_sum", "g_LL_prime", "neg_loglkh_multinom",
      "neg_loglkh_multinom_norm"],
    ["state_transfer_infid_set", "state_transfer_infid", "unitary_infid", "unitary_infid_set",
      "lindbladian_unitary_infid", "lindbladian_unitary_infid_set", "average_infid", "average_infid_set",
      "average_infid_seq", "lindbladian_average_infid", "lindbladian_average_infid_set", "epc_analytical",
      "lindbladian_epc_analytical", "populations", "population", "RB", "lindbladian_RB_left", "lindbladian_RB_right",
      "leakage_RB", "orbit_infid", "state_transfer_from_states"],
    ["gen_dus_rk4", "rk4_unitary", "pwc", "tf_propagation"], ["ode_solver", "ode_solver_final_state"],
    ["rk4", "rk38", "rk5", "tsit5"], ["lindblad", "schrodinger", "von_neumann"]]

/-- A library with given behaviours. -/
def library (names : List (String × Bool)) (body : String → B) : List (Def B) :=
  names.map fun n => ⟨n.1, body n.1, if n.2 then [.deprecated, .register] else [.register]⟩

theorem library_lib (names : List (String × Bool)) (body : String → B) : ∀ x ∈ library names body, x.Lib := by
  intro x hx
  obtain ⟨n, _, rfl⟩ := List.mem_map.1 hx
  unfold Def.Lib
  cases n.2 <;> simp

theorem library_names (names : List (String × Bool)) (body : String → B) :
    (library names body).map Def.name = names.map Prod.fst := by
  simp [library, List.map_map, Function.comp_def]

/-- **C216**, the libraries of c3: names are different within each registry, so every function and class is reached by
its name. -/
theorem C216_libraries (body : String → B) :
    (∀ n ∈ envelopes, ∃ f, construct (load (library envelopes body)) (.name n.1) = some f ∧ f.run = body n.1) ∧
    (∀ n ∈ devices, ∃ f, construct (load (library (devices.map (·, false)) body)) (.name n) = some f ∧
      f.run = body n) ∧
    ∀ l ∈ others, ∀ n ∈ l, ∃ f, construct (load (library (l.map (·, false)) body)) (.name n) = some f ∧
      f.run = body n := by
  have key : ∀ names : List (String × Bool), (names.map Prod.fst).Nodup → ∀ n ∈ names,
      ∃ f, construct (load (library names body)) (.name n.1) = some f ∧ f.run = body n.1 := by
    intro names hn n hm
    obtain ⟨h1, _⟩ := C216_names (library names body) (library_lib names body) (by rw [library_names]; exact hn)
    obtain ⟨f, h2, _, h3⟩ := h1 ⟨n.1, body n.1, if n.2 then [.deprecated, .register] else [.register]⟩
      (List.mem_map_of_mem (f := fun n : String × Bool => (⟨n.1, body n.1, if n.2 then [.deprecated, .register] else
        [.register]⟩ : Def B)) hm)
    exact ⟨f, h2, h3⟩
  have flat : ∀ l : List String, l.Nodup → ∀ n ∈ l, ∃ f, construct (load (library (l.map (·, false)) body)) (.name n) =
      some f ∧ f.run = body n := by
    intro l hl n hm
    refine key (l.map (·, false)) ?_ (n, false) (List.mem_map_of_mem (f := fun s : String => (s, false)) hm)
    rw [List.map_map]
    simpa [Function.comp_def] using hl
  refine ⟨key _ (by decide), flat _ (by decide), fun l hl => flat l ?_⟩
  have : ∀ l ∈ others, l.Nodup := by decide
  exact this l hl

/-- The names of the envelopes a file may contain, in alphabetical order. -/
def envelopeNames : List String :=
  ["cosine", "cosine_flattop", "delta_pulse", "drag", "drag_der", "drag_sigma", "flattop",
   "flattop_cut", "flattop_cut_center", "flattop_risefall", "flattop_risefall_1ns",
   "flattop_variant", "fourier_cos", "fourier_sin", "gaussian", "gaussian_der",
   "gaussian_der_nonorm", "gaussian_nonorm", "gaussian_sigma", "no_drive", "pwc", "pwc_shape",
   "pwc_shape_plateau", "pwc_symmetric", "rect", "slepian_fourier", "trapezoid"]

/-- The names of devices. -/
def deviceNames : List String :=
  ["AWG", "Additive_Noise", "CouplingTuning", "Crosstalk", "DC_Noise", "DC_Offset",
   "DigitalToAnalog", "ExponentialIIR", "Filter", "FluxTuning", "HighpassExponential",
   "HighpassFilter", "LO", "LONoise", "Mixer", "Pink_Noise", "Readout", "Response", "ResponseFFT",
   "SkinEffectResponse", "StepFuncFilter", "VoltsToHertz"]

/-- The names of chip components, Hamiltonians, components of instructions, algorithms, samplers, tasks, estimators,
fidelities, unitary providers, state providers, solvers and steps. -/
def otherNames : List (List String) :=
  [["CShuntFluxQubit", "CShuntFluxQubitCos", "Coupling", "Coupling_Drive", "Drive", "Fluxonium",
     "LineComponent", "Qubit", "Resonator", "SNAIL", "Transmon", "TransmonExpanded"],
    ["duffing", "int_XX", "int_YY", "resonator", "third_order", "x_drive", "y_drive", "z_drive"],
    ["Carrier", "Envelope", "EnvelopeDrag", "EnvelopeNetZero"],
    ["adaptive_scan", "cma_pre_lbfgs", "cmaes", "gcmaes", "grid2D", "lbfgs", "lbfgs_grad_free",
     "oneplusone", "single_eval", "sweep", "tf_sgd"],
    ["all", "even", "even_fid", "from_end", "from_start", "high_std", "random_sample"],
    ["ConfusionMatrix", "InitialiseGround", "MeasurementRescale"],
    ["g_LL_prime", "mean_dist", "mean_exp_stds_dist", "mean_sim_stds_dist", "median_dist",
     "neg_loglkh_binom", "neg_loglkh_binom_norm", "neg_loglkh_gauss", "neg_loglkh_gauss_norm",
     "neg_loglkh_gauss_norm_sum", "neg_loglkh_multinom", "neg_loglkh_multinom_norm", "rms_dist",
     "rms_exp_stds_dist", "rms_sim_stds_dist", "std_of_diffs"],
    ["RB", "average_infid", "average_infid_seq", "average_infid_set", "epc_analytical", "leakage_RB",
     "lindbladian_RB_left", "lindbladian_RB_right", "lindbladian_average_infid",
     "lindbladian_average_infid_set", "lindbladian_epc_analytical", "lindbladian_unitary_infid",
     "lindbladian_unitary_infid_set", "orbit_infid", "population", "populations",
     "state_transfer_from_states", "state_transfer_infid", "state_transfer_infid_set", "unitary_infid",
     "unitary_infid_set"],
    ["gen_dus_rk4", "pwc", "rk4_unitary", "tf_propagation"],
    ["ode_solver", "ode_solver_final_state"],
    ["rk38", "rk4", "rk5", "tsit5"],
    ["lindblad", "schrodinger", "von_neumann"]]

/-- A name is accepted exactly if it is in the catalogue. -/
theorem catalogue (names : List (String × Bool)) (hn : (names.map Prod.fst).Nodup) (cat : List String)
    (h1 : ∀ n ∈ cat, n ∈ names.map Prod.fst) (h2 : ∀ n ∈ names.map Prod.fst, n ∈ cat) (body : String → B) (s : String) :
    (∃ f, construct (load (library names body)) (.name s) = some f) ↔ s ∈ cat := by
  obtain ⟨h3, h4⟩ := C216_names (library names body) (library_lib names body) (by rw [library_names]; exact hn)
  rw [library_names] at h4
  constructor
  · rintro ⟨f, hf⟩
    by_contra h
    have := h4 s fun hs => h (h2 s hs)
    rw [this] at hf
    simp at hf
  · intro hs
    obtain ⟨n, hm, rfl⟩ := List.mem_map.1 (h1 s hs)
    obtain ⟨f, hf, _⟩ := h3 ⟨n.1, body n.1, if n.2 then [.deprecated, .register] else [.register]⟩
      (List.mem_map_of_mem (f := fun n : String × Bool => (⟨n.1, body n.1, if n.2 then [.deprecated, .register] else
        [.register]⟩ : Def B)) hm)
    exact ⟨f, hf⟩

/-- **C216**: the names that can be used in files are exactly those of the catalogue, and exactly two of the envelopes are
deprecated. -/
theorem C216_catalogue (body : String → B) :
    (∀ s, (∃ f, construct (load (library envelopes body)) (.name s) = some f) ↔ s ∈ envelopeNames) ∧
    (∀ s, (s, true) ∈ envelopes ↔ s = "gaussian" ∨ s = "drag") ∧
    (∀ s, (∃ f, construct (load (library (devices.map (·, false)) body)) (.name s) = some f) ↔ s ∈ deviceNames) ∧
    List.Forall₂ (fun l cat => ∀ s, (∃ f, construct (load (library (l.map (·, false)) body)) (.name s) = some f) ↔ s ∈ cat)
      others otherNames := by
  refine ⟨catalogue _ (by decide) _ (by decide) (by decide) body, fun s => ?_,
    catalogue _ (by decide) _ (by decide) (by decide) body, ?_⟩
  · constructor
    · intro h
      have : ∀ n ∈ envelopes, n.2 = true → n.1 = "gaussian" ∨ n.1 = "drag" := by decide
      exact this _ h rfl
    · rintro (rfl | rfl) <;> decide
  · unfold others otherNames
    repeat' first
      | exact List.Forall₂.nil
      | refine List.Forall₂.cons (catalogue _ (by decide) _ (by decide) (by decide) body) ?_

/-- In the library of envelopes the claim fails for `gaussian` and `drag`. -/
theorem C216_false_gaussian (body : String → B) (n : String) (h : n = "gaussian" ∨ n = "drag") :
    ∃ f, (load (library envelopes body)).attrs.lookup n = some f ∧ f.run = body n ∧
      reread (load (library envelopes body)) f = none := by
  have hn : ((library envelopes body).map Def.name).Nodup := by rw [library_names]; decide
  have hm : (⟨n, body n, [.deprecated, .register]⟩ : Def B) ∈ library envelopes body := by
    have : (n, true) ∈ envelopes := by rcases h with rfl | rfl <;> decide
    exact List.mem_map_of_mem (f := fun n : String × Bool => (⟨n.1, body n.1, if n.2 then [.deprecated, .register] else
        [.register]⟩ : Def B)) this
  obtain ⟨f, h1, _, _, h4⟩ := C216_false_deprecated _ (library_lib envelopes body) hn
    (by rw [library_names]; decide) _ hm rfl
  obtain ⟨f', _, h5, _, h6, _⟩ := C216_calls _ (library_lib envelopes body) hn _ hm
  rw [h1] at h5
  cases h5
  exact ⟨f, h1, h6, h4⟩

/-- The claim "every device can be read from a file" is false for `FluxTuningLinear` (c3/generator/devices.py:528),
which is not registered. -/
theorem C216_false_linear (body : String → B) :
    construct (load (library (devices.map (·, false)) body)) (.name "FluxTuningLinear") = none := by
  refine (C216_names _ (library_lib _ body) ?_).2 _ ?_
  · rw [library_names]; decide
  · rw [library_names]; decide

/-! ## Examples -/

example : (∀ s f, construct (load (library envelopes String.length)) (.name s) = some f →
    reread (load (library envelopes String.length)) f = some f) ∧
    ∃ f, construct (load (library envelopes String.length)) (.name "gaussian") = some f ∧ f.run = 8 := by
  refine ⟨(C216_reread_partial _ (library_lib _ _) (by rw [library_names]; decide)).1, ?_⟩
  obtain ⟨f, h1, h2⟩ := (C216_libraries String.length).1 ("gaussian", true) (by decide)
  exact ⟨f, h1, h2⟩

end C3.Config.Registry
