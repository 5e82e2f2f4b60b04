import Mathlib.Algebra.BigOperators.Group.List.Basic

/-!
# Model of the product and batch code

`tf_matmul_n`, `tf_matmul_left`, `tf_matmul_right` (c3/utils/tf_utils.py), the folding stack
(c3/experiment.py), `tf_batch_propagate` and `evaluate_sequences` (c3/libraries/propagation.py).
Matrices are elements of an arbitrary monoid `M`; `none` stands for a shape error / index error.
-/

namespace C3.Fold

variable {M : Type*} [Monoid M] {α β : Type*}

/-- `l[0::2]` (c3/utils/tf_utils.py:160). -/
def evens : List α → List α
  | [] => []
  | [a] => [a]
  | a :: _ :: l => a :: evens l

/-- `l[1::2]` (c3/utils/tf_utils.py:161). -/
def odds : List α → List α
  | [] => []
  | [_] => []
  | _ :: b :: l => b :: odds l

/-- c3/utils/tf_utils.py:166-178 `_tf_matmul_n_even`: batched `odd @ even`, which needs equal batch
sizes. -/
def matmulEven (odd even : List M) : Option (List M) :=
  if odd.length = even.length then some (List.zipWith (· * ·) odd even) else none

/-- c3/utils/tf_utils.py:181-193 `_tf_matmul_n_odd`: batched `odd @ even[:-1]`, then the last even
element appended. -/
def matmulOdd (odd even : List M) : Option (List M) :=
  match even.getLast? with
  | none => none
  | some e =>
    match matmulEven odd even.dropLast with
    | none => none
    | some l => some (l ++ [e])

/-- One entry of the folding stack: `true` is `_tf_matmul_n_even`. -/
def layer (isEven : Bool) (l : List M) : Option (List M) :=
  if isEven then matmulEven (odds l) (evens l) else matmulOdd (odds l) (evens l)

/-- c3/utils/tf_utils.py:144-163 `tf_matmul_n`. -/
def matmulN : List M → List Bool → Option M
  | l, [] => l.head?
  | l, f :: fs =>
    match layer f l with
    | none => none
    | some l' => matmulN l' fs

/-- c3/experiment.py:98-104, the `while` loop building the stack for `n` steps;
`np.ceil(n / 2)` is `(n + 1) / 2`. -/
def stackFor (n : ℕ) : List Bool :=
  if h : 1 < n then (n % 2 == 0) :: stackFor ((n + 1) / 2) else []
termination_by n
decreasing_by omega

/-- c3/utils/tf_utils.py:120-129 `tf_matmul_left`: `tf.foldr` without initializer starts with the
last element and proceeds to the first, the accumulator being the left factor. -/
def matmulLeft (l : List M) : Option M :=
  match l.reverse with
  | [] => none
  | a :: rest => some (rest.foldl (fun a x => a * x) a)

/-- c3/utils/tf_utils.py:132-141 `tf_matmul_right`: `tf.foldl` without initializer. -/
def matmulRight (l : List M) : Option M :=
  match l with
  | [] => none
  | a :: rest => some (rest.foldl (fun a x => a * x) a)

/-- c3/libraries/propagation.py:482-515 `tf_batch_propagate`. `slices` is the list over time (signal
vectors, or Hamiltonians when there are no signals), `prop` the vectorised propagation of a batch;
`int(ceil(n / batch_size))` is `(n + bs - 1) / bs`. -/
def batchPropagate (prop : List α → List β) (slices : List α) (bs : ℕ) : List β :=
  (List.range ((slices.length + bs - 1) / bs)).flatMap fun i =>
    prop ((slices.drop (i * bs)).take bs)

/-- Exceptions of `evaluate_sequences`: an empty gate dictionary (`list(...)[0]`,
c3/libraries/propagation.py:612) or an unknown gate (line 622). -/
inductive SeqErr
  | noGates
  | unknown (g : String)

/-- c3/libraries/propagation.py:620-622: look up the gates of one sequence. -/
def lookupAll (gates : List (String × M)) : List String → Except SeqErr (List M)
  | [] => .ok []
  | g :: gs =>
    match gates.lookup g with
    | none => .error (.unknown g)
    | some U =>
      match lookupAll gates gs with
      | .error e => .error e
      | .ok Us => .ok (U :: Us)

/-- c3/libraries/propagation.py:616-625, one sequence. -/
def evalSeq (gates : List (String × M)) (seq : List String) : Except SeqErr M :=
  if seq = [] then .ok 1
  else
    match lookupAll gates seq with
    | .error e => .error e
    | .ok Us =>
      match matmulLeft Us with
      | none => .error .noGates
      | some U => .ok U

/-- c3/libraries/propagation.py:615-627, the loop over sequences. -/
def evalSeqs (gates : List (String × M)) : List (List String) → Except SeqErr (List M)
  | [] => .ok []
  | s :: ss =>
    match evalSeq gates s with
    | .error e => .error e
    | .ok U =>
      match evalSeqs gates ss with
      | .error e => .error e
      | .ok Us => .ok (U :: Us)

/-- c3/libraries/propagation.py:588-627 `evaluate_sequences`. The dictionary is an association list
with distinct keys. -/
def evaluateSequences (gates : List (String × M)) (seqs : List (List String)) :
    Except SeqErr (List M) :=
  if gates = [] then .error .noGates else evalSeqs gates seqs

end C3.Fold
