import Mathlib.Data.Real.Basic
import Mathlib.Order.WithBot
import Mathlib.Order.Lattice

/-!
# Model of the timing code of instructions

`Instruction.get_timings`, `get_full_gate_length` and `auto_adjust_t_end`
(c3/signal/gates.py:282-339).
-/

namespace C3.Timing

/-- A component with its options. `tFinal` is present for envelopes (and absent for carriers). -/
structure TComp where
  delay : Option ℝ
  trigger : Option (String × String)
  cut : Option ℝ
  tFinal : Option ℝ

/-- An instruction: channels with the names of their components in dictionary order, the components,
start and end. -/
structure TInstr where
  chans : List (String × List String)
  comp : String × String → Option TComp
  tStart : ℝ
  tEnd : ℝ

/-- `self._timings`. -/
abbrev Cache := String → Option (ℝ × ℝ)

/-- c3/signal/gates.py:283. -/
def cacheKey (k : String × String) : String := k.1 ++ "-" ++ k.2

/-- c3/signal/gates.py:295-302. -/
def endOf (tEnd : ℝ) (minimal : Bool) (c : TComp) (s : ℝ) : ℝ :=
  match c.cut with
  | some x => s + x
  | none =>
    match c.tFinal with
    | some x => s + x
    | none => if minimal then s else tEnd

/-- Value of an optional delay. -/
def delayOf (c : TComp) : ℝ := c.delay.getD 0

/-- Errors: a missing component (`KeyError`) or unbounded recursion (`RecursionError`). -/
inductive TErr
  | key
  | recursion
  deriving DecidableEq

/-- c3/signal/gates.py:282-320 `get_timings`. The recursion for the trigger component does not pass
`minimal_time` on (line 293). `fuel` is the recursion limit. -/
noncomputable def getTimings (I : TInstr) : ℕ → Cache → String × String → Bool →
    Except TErr ((ℝ × ℝ) × Cache)
  | 0, _, _, _ => .error .recursion
  | fuel + 1, cache, k, minimal =>
    match cache (cacheKey k) with
    | some r => .ok (r, cache)
    | none =>
      match I.comp k with
      | none => .error .key
      | some c =>
        match c.trigger with
        | none =>
          let s := I.tStart + delayOf c
          let r := (s, endOf I.tEnd minimal c s)
          .ok (r, Function.update cache (cacheKey k) (some r))
        | some j =>
          match getTimings I fuel cache j false with
          | .error e => .error e
          | .ok (rj, cache') =>
            let s := I.tStart + delayOf c + rj.2
            let r := (s, endOf I.tEnd minimal c s)
            .ok (r, Function.update cache' (cacheKey k) (some r))

/-- c3/signal/gates.py:327-330, the loop over the components of one channel. The running start and
end are `inf` and `-inf` (here `⊤` and `⊥`) at the beginning. -/
noncomputable def lengthComps (I : TInstr) (fuel : ℕ) (chan : String) :
    List String → Cache → WithTop ℝ → WithBot ℝ → Except TErr (WithTop ℝ × WithBot ℝ)
  | [], _, a, b => .ok (a, b)
  | n :: ns, cache, a, b =>
    match getTimings I fuel cache (chan, n) true with
    | .error e => .error e
    | .ok (r, cache') => lengthComps I fuel chan ns cache' (min a (r.1 : WithTop ℝ)) (max b (r.2 : WithBot ℝ))

/-- c3/signal/gates.py:322-331 `get_full_gate_length`; the cache is emptied for every channel. -/
noncomputable def fullLength (I : TInstr) (fuel : ℕ) :
    List (String × List String) → WithTop ℝ → WithBot ℝ → Except TErr (WithTop ℝ × WithBot ℝ)
  | [], a, b => .ok (a, b)
  | (chan, names) :: cs, a, b =>
    match lengthComps I fuel chan names (fun _ => none) a b with
    | .error e => .error e
    | .ok (a', b') => fullLength I fuel cs a' b'

/-- `get_full_gate_length()`. -/
noncomputable def getFullGateLength (I : TInstr) (fuel : ℕ) : Except TErr (WithTop ℝ × WithBot ℝ) :=
  fullLength I fuel I.chans ⊤ ⊥

open scoped Classical in
/-- c3/signal/gates.py:333-339 `auto_adjust_t_end`: `none` if the loop has not ended after `iters`
iterations. An instruction without components (where the code would compute with `-inf`) gives an
error here. -/
noncomputable def autoAdjust (buffer : ℝ) (fuel : ℕ) : ℕ → TInstr → Option (Except TErr TInstr)
  | 0, _ => none
  | iters + 1, I =>
    match getFullGateLength I fuel with
    | .error e => some (.error e)
    | .ok (_, none) => some (.error .key)
    | .ok (_, some t) =>
      if I.tEnd = t then some (.ok { I with tEnd := t * (1 + buffer) })
      else autoAdjust buffer fuel iters { I with tEnd := t }

end C3.Timing
