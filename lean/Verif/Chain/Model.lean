import Mathlib.Data.List.Nodup
import Mathlib.Data.List.Basic
import Mathlib.Algebra.Order.Ring.Int
import Mathlib.Data.Rat.Defs

/-!
# Model of the signal chain code

`Generator.__check_signal_chains`, `Generator.__topological_ordering` and
`Generator.generate_signals` (c3/generator/generator.py:57-229).
A chain is a dictionary from device id to the list of its sources; it is modelled by the list of its
keys (in insertion order, without repetition) and the function `preds`.
-/

namespace C3.Chain

variable {α V : Type*} [DecidableEq α]

/-- A chain dictionary. -/
structure SigChain (α : Type*) where
  nodes : List α
  preds : α → List α

/-- The variables of the `while` loop (c3/generator/generator.py:111-125). The Python stack grows at
its end; here its top is the head of the list. -/
structure KState (α : Type*) where
  stack : List α
  num : α → ℤ
  ordered : List α

/-- c3/generator/generator.py:113-115 `successors[node]`. -/
def succs (c : SigChain α) (node : α) : List α := c.nodes.filter fun x => node ∈ c.preds x

/-- c3/generator/generator.py:111-112, 116: the state before the loop. -/
def kInit (c : SigChain α) : KState α where
  stack := (c.nodes.filter fun x => (c.preds x).length = 0).reverse
  num := fun x => (c.preds x).length
  ordered := []

/-- c3/generator/generator.py:121-123: decrement and push. -/
def relax (s : (α → ℤ) × List α) (node : α) : (α → ℤ) × List α :=
  let num := Function.update s.1 node (s.1 node - 1)
  (num, if num node = 0 then node :: s.2 else s.2)

/-- c3/generator/generator.py:119-124: the body of the loop for a popped `src`. -/
def kStep (c : SigChain α) (src : α) (rest : List α) (s : KState α) : KState α :=
  let r := (succs c src).foldl relax (s.num, rest)
  { stack := r.2, num := r.1, ordered := s.ordered ++ [src] }

/-- c3/generator/generator.py:118-124, the `while` loop, with an iteration bound (`none` if the bound
is exhausted, which never happens, see `kahn_terminates`). -/
def kLoop (c : SigChain α) : ℕ → KState α → Option (KState α)
  | fuel, s =>
    match s.stack with
    | [] => some s
    | src :: rest =>
      match fuel with
      | 0 => none
      | fuel + 1 => kLoop c fuel (kStep c src rest s)

/-- Exceptions of the chain code. -/
inductive ChainErr (α : Type*)
  | keyError (dev : α)
  | notFound (dev : α)
  | resolution (dev : α)
  | inputs (dev : α)
  | outputs
  | cycle
  | fuel
  deriving DecidableEq

/-- c3/generator/generator.py:93-128 `__topological_ordering`. -/
def topo (c : SigChain α) : Except (ChainErr α) (List α) :=
  match kLoop c c.nodes.length (kInit c) with
  | none => .error .fuel
  | some s => if s.ordered.length ≠ c.nodes.length then .error .cycle else .ok s.ordered

/-! ## The check -/

/-- The attributes of a device used by the check. -/
structure Dev where
  resolution : ℚ
  inputs : ℤ
  outputs : ℤ

/-- c3/generator/generator.py:64-70, the loop over the sources with the resolution `res` of the
first. -/
def checkSources (devs : α → Option Dev) (id : α) (res : ℚ) : List α → Except (ChainErr α) Unit
  | [] => .ok ()
  | s :: ss =>
    match devs s with
    | none => .error (.notFound s)
    | some d => if res ≠ d.resolution then .error (.resolution id) else checkSources devs id res ss

/-- c3/generator/generator.py:62-70. -/
def checkInputs (devs : α → Option Dev) (id : α) (sources : List α) : Except (ChainErr α) Unit :=
  match sources with
  | [] => .ok ()
  | s :: _ =>
    match devs s with
    | none => .error (.keyError s)
    | some d => checkSources devs id d.resolution sources

/-- c3/generator/generator.py:59-86, the loop over the devices of a chain with the running number of
signals. -/
def checkNodes (devs : α → Option Dev) (preds : α → List α) :
    ℤ → List α → Except (ChainErr α) ℤ
  | signals, [] => .ok signals
  | signals, id :: ids =>
    match checkInputs devs id (preds id) with
    | .error e => .error e
    | .ok _ =>
      match devs id with
      | none => .error (.keyError id)
      | some d =>
        if d.inputs ≠ ((preds id).length : ℤ) then .error (.inputs id)
        else checkNodes devs preds (signals - d.inputs + d.outputs) ids

/-- c3/generator/generator.py:58-91, the body of the loop for one channel: the sorted chain or an
exception. -/
def checkChain (devs : α → Option Dev) (c : SigChain α) : Except (ChainErr α) (List α) :=
  match checkNodes devs c.preds 0 c.nodes with
  | .error e => .error e
  | .ok signals => if signals ≠ 1 then .error .outputs else topo c

/-! ## Running the chain -/

/-- c3/generator/generator.py:200-202: collect the inputs from the signal stack. -/
def collect (stack : α → Option V) : List α → Option (List V)
  | [] => some []
  | x :: xs =>
    match stack x with
    | none => none
    | some v =>
      match collect stack xs with
      | none => none
      | some vs => some (v :: vs)

/-- c3/generator/generator.py:199-207: run the devices in the given order; the result is the signal
stack and the last output. `process` are pure device functions. -/
def runOrder (preds : α → List α) (process : α → List V → V) :
    (α → Option V) → Option V → List α → Option ((α → Option V) × Option V)
  | stack, out, [] => some (stack, out)
  | stack, _, x :: xs =>
    match collect stack (preds x) with
    | none => none
    | some ins =>
      let v := process x ins
      runOrder preds process (Function.update stack x (some v)) (some v) xs

/-- c3/generator/generator.py:188-221, one channel: the output of the last device. -/
def generate (preds : α → List α) (process : α → List V → V) (order : List α) : Option V :=
  match runOrder preds process (fun _ => none) none order with
  | none => none
  | some (_, out) => out

end C3.Chain
