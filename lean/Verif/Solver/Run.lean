import Mathlib.Algebra.Order.Field.Basic
import Mathlib.Tactic.Linarith

/-!
# The main loop of the smooth line-search solvers

Model of `SolversSMLS::Run` (`Solvers/SolversSMLS.cpp:7-154`).

What is kept: the loop condition, the iteration counter, the status test, every write into the
history arrays (with its index), the list of earlier objective values used by the nonmonotone line
search, and the early exit on a NaN or infinite value.  Everything problem dependent is an
arbitrary "environment": the result of the search in iteration `k` (the accuracy branch of lines
58-63, which takes a fixed step, and user supplied searches included), the stopping test after
iteration `k`, and the test that switches the nonmonotone mode on.  Theorems quantify over all
environments.

Simplifications: `Max_Iteration`, `Min_Iteration`, `OutputGap`, `Num_pre_funs` are natural numbers and
`1 + Max_Iteration` does not overflow; the five history arrays have the same length and all but
`initialstepsize` are written at the same place, so two arrays (`funSeries`, `initialstepsize`)
represent them; the time and gradient histories are not modelled.
-/

namespace Verif.Solver

variable {K : Type}

/-- Parameters read by the loop, `Solvers/Solvers.cpp:53-64`, `SolversSMLS.cpp:655-680`. -/
structure RunCfg where
  maxIter : Nat
  minIter : Nat
  outputGap : Nat
  numPre : Nat
  /-- `Verbose >= ITERRESULT` -/
  record : Bool

/-- What one search leaves behind: is `LSstatus` equal to success, the value `f2`, and whether that
value is neither NaN nor infinite. -/
structure Trial (K : Type) where
  ok : Bool
  f2 : K
  finite : Bool
  /-- `initiallength` -/
  initStep : K

/-- The problem dependent part of a run. `trial k f1 pre` is the result of the search made in
iteration `k` from value `f1` with stored values `pre`; `stopped k` is the value of `IsStopped()` when
`iter = k`; `nonmono k` is the test of `SolversSMLS.cpp:129` at `iter = k`. -/
structure RunEnv (K : Type) where
  finit : K
  trial : Nat → K → List K → Trial K
  stopped : Nat → Bool
  nonmono : Nat → Bool

/-- Loop state.  `hist` is a ghost variable: the objective values at the successive iterates `x1`,
newest first (its head is `f1`). -/
structure RunState (K : Type) where
  iter : Nat
  isstop : Bool
  ok : Bool
  f1 : K
  pre : List K
  nonmono : Bool
  funSeries : List (Option K)
  initSeries : List (Option K)
  hist : List K
  /-- the member `lengthSeries`, written only after the loop (`SolversSMLS.cpp:144`) -/
  lengthSeries : Nat
  /-- ghost: the values of `lengthSeries` handed to the stopping test so far, newest first
  (`SolversSM.cpp:60`) -/
  seenLengths : List Nat

/-- How a run can end. -/
inductive Outcome (K : Type) where
  /-- the fuel of the model ran out: the run is still going on -/
  | running
  /-- a write outside an array -/
  | outOfBounds
  /-- `iter % OutputGap` with `OutputGap = 0` -/
  | divByZero
  | finished (s : RunState K)

/-- State before the loop, `SolversSMLS.cpp:10-45`. With recording the arrays have `1 + Max_Iteration`
cells (`Solvers.cpp:39-40`, `SolversSMLS.cpp:26`) and cell 0 is written (never out of bounds).  `len0` is the value of
`lengthSeries` on entry: 0 for a new solver (`Solvers.cpp:55`). -/
def RunState.init (C : RunCfg) (E : RunEnv K) (zero : K) (len0 : Nat) : RunState K :=
  { iter := 0, isstop := E.stopped 0, ok := true, f1 := E.finit, pre := [], nonmono := false
    funSeries := some E.finit :: List.replicate C.maxIter none
    initSeries := some zero :: List.replicate C.maxIter none
    hist := [E.finit], lengthSeries := len0, seenLengths := [len0] }

/-- The loop condition, `SolversSMLS.cpp:47`. -/
def RunState.continues (C : RunCfg) (s : RunState K) : Bool :=
  ((!s.isstop && decide (s.iter < C.maxIter)) || decide (s.iter < C.minIter)) && s.ok

/-- The update of `pre_funs`, `SolversSMLS.cpp:132-134`. -/
def pushPre (numPre : Nat) (nonmono : Bool) (f1 : K) (pre : List K) : List K :=
  let p := f1 :: pre
  if (p.length > numPre || !nonmono) && p.length > 1 then p.dropLast else p

/-- Result of one pass: an early exit (NaN), an error, or the next state. -/
inductive Pass (K : Type) where
  | outOfBounds
  | divByZero
  | stop (s : RunState K)
  | next (s : RunState K)

/-- One pass through the loop body, `SolversSMLS.cpp:48-138`. -/
def pass (C : RunCfg) (E : RunEnv K) (s : RunState K) : Pass K :=
  let t := E.trial s.iter s.f1 s.pre
  if C.record && s.initSeries.length ≤ s.iter + 1 then .outOfBounds
  else
    let s := if C.record then
        { s with initSeries := s.initSeries.set (s.iter + 1) (some t.initStep) } else s
    let s := { s with ok := t.ok }
    if !t.finite then .stop s
    else
      let s := { s with
        iter := s.iter + 1, isstop := E.stopped (s.iter + 1)
        seenLengths := s.lengthSeries :: s.seenLengths }
      if C.record && C.outputGap == 0 then .divByZero
      else if C.record && s.funSeries.length ≤ s.iter then .outOfBounds
      else
        let s := if C.record then
            { s with funSeries := s.funSeries.set s.iter (some t.f2) } else s
        let nm := s.nonmono || E.nonmono s.iter
        .next { s with
          nonmono := nm
          pre := pushPre C.numPre nm s.f1 s.pre
          f1 := t.f2
          hist := t.f2 :: s.hist }

/-- The loop, `SolversSMLS.cpp:47-139`. -/
def runLoop (C : RunCfg) (E : RunEnv K) : Nat → RunState K → Outcome K
  | 0, _ => .running
  | n + 1, s =>
    if s.continues C then
      match pass C E s with
      | .outOfBounds => .outOfBounds
      | .divByZero => .divByZero
      | .stop s => .finished s
      | .next s => runLoop C E n s
    else .finished s

/-- After the loop, `SolversSMLS.cpp:142-147`. -/
def Outcome.close (C : RunCfg) : Outcome K → Outcome K
  | .finished s => .finished (if C.record then { s with lengthSeries := s.iter + 1 } else s)
  | o => o

/-- `Run()`, `SolversSMLS.cpp:7-154`. -/
def run (C : RunCfg) (E : RunEnv K) (zero : K) (len0 : Nat) (fuel : Nat) : Outcome K :=
  (runLoop C E fuel (RunState.init C E zero len0)).close C

end Verif.Solver
