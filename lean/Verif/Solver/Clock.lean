import Mathlib.Data.Rat.Floor

/-!
# The clock: `TimeBound`, `GetComTime` and the recorded times

All solver objects measure time from one global variable, `starttime` (Solvers.cpp:7), which every `Run` sets. What the problem and the manifold do in between (calls of user functions included) is a sequence of events: time passes, or some solver object is run, which sets the variable again.

Simplifications: the wall clock does not jump; division by 10^6 and the comparison with `TimeBound` are exact; reading the clock takes no time of its own (time is accounted for in the events around it).
-/

namespace Verif.Clock

/-- What happens between two readings of the clock: `d` microseconds pass, or `Run` of some solver object starts (`starttime = getTickCount()`, Solvers.cpp:36, SolversSMTR.cpp:12). -/
inductive Ev
  | work (d : Nat)
  | start

/-- The microseconds since some origin, and the global variable `starttime`. -/
structure Clk where
  now : Nat
  start : Nat

/-- `getTickCount`, Timer.cpp:7-38: microseconds in an `unsigned long` of `w` bits (64 on Linux and macOS, 32 on Windows). -/
def tick (w : Nat) (c : Clk) : Nat := c.now % 2 ^ w

/-- Effect of an event. -/
def Ev.exec (w : Nat) (c : Clk) : Ev → Clk
  | .work d => { c with now := c.now + d }
  | .start => { c with start := tick w c }

/-- Effect of a sequence of events. -/
def execs (w : Nat) (es : List Ev) (c : Clk) : Clk := es.foldl (Ev.exec w) c

/-- `getTickCount() - starttime`: subtraction of words of `w` bits. -/
def elapsed (w : Nat) (c : Clk) : Nat := (tick w c + (2 ^ w - c.start)) % 2 ^ w

/-- What a run is given: the width of `unsigned long`, `TimeBound`, `Max_Iteration`, `Min_Iteration`. -/
structure Par where
  w : Nat
  bound : Rat
  maxIter : Nat
  minIter : Nat

/-- `static_cast<realdp>(getTickCount() - starttime) / CLK_PS > TimeBound`, SolversSM.cpp:56, SolversNSM.cpp:93. -/
def timeUp (P : Par) (c : Clk) : Bool := decide (P.bound < (elapsed P.w c : Rat) / 1000000)

/-- One pass of the loop of a solver, as far as the clock is concerned. -/
structure Pass where
  /-- up to the call of `IsStopped` -/
  pre : List Ev
  /-- the loop is left by `break` (no number; smallest radius) -/
  leave : Bool
  /-- `IsStopped` is called -/
  check : Bool
  /-- its verdict if the time is not up -/
  other : Bool
  /-- from there to the recording of the time -/
  mid : List Ev
  /-- `iter++` and the recording take place -/
  count : Bool
  /-- to the end of the pass -/
  post : List Ev
  /-- the status of the line search lets the loop go on -/
  ok : Bool

/-- State at the head of the loop. `times` is the recorded series in microseconds, latest first; `passes` counts passes. -/
structure St where
  clk : Clk
  iter : Nat
  isstop : Bool
  ok : Bool
  times : List Nat
  passes : Nat

/-- A pass: SolversSMLS.cpp:49-142 (every pass that is not left calls `IsStopped` and counts), SolversSMTR.cpp:38-114 (every pass counts, only accepted steps call `IsStopped`, line 86), ManPG.cpp:59-139 (passes whose search fails neither call it nor count), AManPG.cpp:131-242. `true` in the second component: left by `break`. -/
def pass (P : Par) (b : Pass) (s : St) : St × Bool :=
  let c := execs P.w b.pre s.clk
  if b.leave then ({ s with clk := c, passes := s.passes + 1 }, true)
  else
    let st := if b.check then timeUp P c || b.other else s.isstop
    let c := execs P.w b.mid c
    ({ clk := execs P.w b.post c
       iter := if b.count then s.iter + 1 else s.iter
       isstop := st
       ok := b.ok
       times := if b.count then elapsed P.w c :: s.times else s.times
       passes := s.passes + 1 }, false)

/-- `while ((((! isstop) && iter < Max_Iteration) || iter < Min_Iteration) && LSstatus == LSSM_SUCCESS)`, SolversSMLS.cpp:47; the same without the last condition in SolversSMTR.cpp:36. `none`: more than `n` passes. -/
def loop (P : Par) (body : Nat → Pass) : Nat → St → Option St
  | 0, _ => none
  | n + 1, s =>
    if ((!s.isstop && decide (s.iter < P.maxIter)) || decide (s.iter < P.minIter)) && s.ok then
      match pass P (body s.passes) s with
      | (s, true) => some s
      | (s, false) => loop P body n s
    else some s

/-- `Run`: the start, the evaluation of cost and gradient at the initial point (`pro`), the recording of the first time and the first call of `IsStopped` (`first`: its verdict if the time is not up). SolversSMLS.cpp:8-145, SolversSMTR.cpp:7-115. -/
def run (P : Par) (pro : List Ev) (first : Bool) (body : Nat → Pass) (n : Nat) (c : Clk) : Option St :=
  let c := execs P.w pro (Ev.exec P.w c .start)
  loop P body n ⟨c, 0, timeUp P c || first, true, [elapsed P.w c], 0⟩

/-- `ComTime`, the value of `GetComTime`, in microseconds: SolversSMLS.cpp:145, SolversSMTR.cpp:115. -/
def comTime (P : Par) (s : St) : Nat := elapsed P.w s.clk

/-! ## The subgradient solvers -/

/-- One pass of SolversNSMSubLS.cpp:41-108. -/
structure SubPass where
  /-- `GetSearchDir` up to the subproblem (MinPNormConHull.cpp:19-26) -/
  before : List Ev
  /-- the run of `RTRNewton` on the subproblem, MinPNormConHull.cpp:31, and the rest of `GetSearchDir`; further subproblems included -/
  inner : List Ev
  /-- verdict of `IsStopped` if the time is not up -/
  other : Bool
  /-- the direction is small: `continue` -/
  small : Bool
  /-- search and update -/
  mid : List Ev
  /-- to the end of the pass -/
  post : List Ev
  /-- `Eps > Min_Eps` after the pass -/
  epsLarge : Bool
  /-- the status of the line search lets the loop go on -/
  ok : Bool

/-- State of the loop of the subgradient solvers. -/
structure SubSt where
  clk : Clk
  iter : Nat
  isstop : Bool
  epsLarge : Bool
  ok : Bool
  times : List Nat
  passes : Nat

/-- A pass: the search direction with the run of the inner solver, `IsStopped`, then either `continue` or search, update and recording. -/
def subPass (P : Par) (b : SubPass) (s : SubSt) : SubSt :=
  let c := execs P.w b.inner (Ev.exec P.w (execs P.w b.before s.clk) .start)
  let st := timeUp P c || b.other
  if b.small then { s with clk := c, isstop := st, epsLarge := b.epsLarge, passes := s.passes + 1 }
  else
    let c := execs P.w b.mid c
    { clk := execs P.w b.post c
      iter := s.iter + 1
      isstop := st
      epsLarge := b.epsLarge
      ok := b.ok
      times := elapsed P.w c :: s.times
      passes := s.passes + 1 }

/-- `while ( iter < Max_Iteration && ((!isstop) || iter < Min_Iteration || Eps > Min_Eps) && …)`, SolversNSMSubLS.cpp:41. -/
def subLoop (P : Par) (body : Nat → SubPass) : Nat → SubSt → Option SubSt
  | 0, _ => none
  | n + 1, s =>
    if decide (s.iter < P.maxIter) && (!s.isstop || decide (s.iter < P.minIter) || s.epsLarge) && s.ok then subLoop P body n (subPass P (body s.passes) s)
    else some s

/-- `SolversNSMSubLS::Run`, SolversNSMSubLS.cpp:7-110. `eps`: `Eps > Min_Eps` at the start. -/
def subRun (P : Par) (pro : List Ev) (eps : Bool) (body : Nat → SubPass) (n : Nat) (c : Clk) : Option SubSt :=
  let c := execs P.w pro (Ev.exec P.w c .start)
  subLoop P body n ⟨c, 0, false, eps, true, [elapsed P.w c], 0⟩

end Verif.Clock
