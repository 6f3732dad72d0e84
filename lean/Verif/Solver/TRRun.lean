import Mathlib.Algebra.Order.Field.Basic
import Mathlib.Tactic.Linarith

/-!
# The main loop of the trust-region solvers

Model of `SolversSMTR::Run` (`Solvers/SolversSMTR.cpp:6-119`).

Kept: the loop condition, the counter, the acceptance ratio, the radius update with both bounds, the
acceptance test with its three branches, the exchange of iterate and candidate, the evaluation of the stopping test
on acceptance only, the NaN exit, and every write into the objective and gradient-norm histories. The candidate,
its quadratic model value, the inner status, the objective, the gradient norm and the stopping test are arbitrary
functions (an "environment"); theorems quantify over all of them.

Simplifications: exact arithmetic; `Max_Iteration`, `Min_Iteration`, `OutputGap` are natural numbers and
`1 + Max_Iteration` does not overflow; the time history has the same length and indices as the
others and is not kept; algorithm-specific updates (`UpdateData`, `Acceptence`) are part of the environment.
-/

namespace Verif.TRRun

/-- `tCGstatusSetSM`, `Solvers/SolversSMTR.h:26`. -/
inductive Status where
  | negCurv | excRegion | min | lCon | sCon | maxIter | error
  deriving DecidableEq

/-- Parameters, `SolversSMTR.cpp:243-266`, `Solvers.cpp:53-64`. `sqeps` is the square root of the machine epsilon. -/
structure Cfg (K : Type) where
  maxIter : Nat
  minIter : Nat
  outputGap : Nat
  record : Bool
  initialDelta : K
  maximumDelta : K
  minimumDelta : K
  magnified : K
  shrinked : K
  acceptRho : K
  accuracy : K
  tolerance : K
  sqeps : K

/-- The acceptance ratio: a number, an infinity or NaN. -/
inductive Ratio (K : Type) where
  | num (v : K)
  | posInf
  | negInf
  | nan

/-- Candidate computed in one pass: the point, the value of the quadratic model, the inner status, whether the
objective is finite there, and the ratio that a division by (signed) zero gives. -/
structure Cand (K X : Type) where
  x2 : X
  mval : K
  status : Status
  finite : Bool
  zeroRatio : Ratio K

/-- Problem dependent part. -/
structure Env (K X : Type) where
  x0 : X
  f : X → K
  ngf : X → K
  /-- candidate of pass `k` from point `x` with radius `Delta` -/
  cand : Nat → X → K → Cand K X
  /-- `IsStopped()` after accepting a candidate in pass `k`; `stopped0` before the loop -/
  stopped0 : Bool
  stopped : Nat → X → X → Bool

structure St (K X : Type) where
  iter : Nat
  isstop : Bool
  x1 : X
  f1 : K
  f2 : K
  ngf1 : K
  ngf2 : K
  Delta : K
  funSeries : List (Option K)
  gradSeries : List (Option K)
  /-- ghost: the successive iterates (one entry per pass, repeated on rejection), newest first -/
  xs : List X
  /-- ghost: number of consecutive rejections up to now -/
  streak : Nat

variable {K X : Type} [Field K] [LinearOrder K]

def Ratio.gt (r : Ratio K) (c : K) : Bool :=
  match r with
  | .num v => decide (c < v)
  | .posInf => true
  | _ => false

def Ratio.lt (r : Ratio K) (c : K) : Bool :=
  match r with
  | .num v => decide (v < c)
  | .negInf => true
  | _ => false

/-- `rho`, line 51: `(f1 - f2) / (-Metric(eta2, gf1 + Heta2 / 2))`. -/
def ratio (f1 f2 : K) (c : Cand K X) : Ratio K :=
  if c.mval = 0 then c.zeroRatio else .num ((f1 - f2) / (-c.mval))

/-- `ngf1 / (ngf0 + Tolerance) < Accuracy`, lines 68 and 83 (the tests are complementary for numbers). -/
def accurate (C : Cfg K) (ngf0 ngf1 : K) : Bool := decide (ngf1 / (ngf0 + C.tolerance) < C.accuracy)

/-- The radius update, lines 54-79; `none` means that the loop is left. -/
def radius (C : Cfg K) (rho : Ratio K) (status : Status) (acc : Bool) (Delta : K) : Option K :=
  if rho.gt (3 / 4) then
    let D := if status = .excRegion ∨ status = .negCurv ∨ status = .maxIter then Delta * C.magnified else Delta
    some (if C.maximumDelta < D then C.maximumDelta else D)
  else if rho.lt (1 / 4) && !acc then
    let D := Delta * C.shrinked
    if D < C.minimumDelta then none else some D
  else some Delta

/-- The acceptance test, lines 81-84. -/
def accepts (C : Cfg K) (rho : Ratio K) (status : Status) (acc : Bool) (f1 f2 : K) : Bool :=
  rho.gt C.acceptRho ||
  (decide (|f1 - f2| / (|f1| + 1) < C.sqeps) && decide (f2 < f1)) ||
  (acc && (decide (f2 < f1) || decide (status = .min ∨ status = .lCon ∨ status = .sCon)))

inductive Pass (K X : Type) where
  | outOfBounds
  | divByZero
  | stop (s : St K X)
  | next (s : St K X)

/-- State before the loop, lines 8-36. -/
def St.init (C : Cfg K) (E : Env K X) : St K X :=
  { iter := 0, isstop := E.stopped0, x1 := E.x0, f1 := E.f E.x0, f2 := E.f E.x0
    ngf1 := E.ngf E.x0, ngf2 := E.ngf E.x0, Delta := C.initialDelta
    funSeries := some (E.f E.x0) :: List.replicate C.maxIter none
    gradSeries := some (E.ngf E.x0) :: List.replicate C.maxIter none
    xs := [E.x0], streak := 0 }

/-- Line 37. -/
def St.continues (C : Cfg K) (s : St K X) : Bool :=
  (!s.isstop && decide (s.iter < C.maxIter)) || decide (s.iter < C.minIter)

/-- The state after an accepted candidate, lines 86-99. -/
def St.accept (E : Env K X) (s : St K X) (x2 : X) (Delta : K) : St K X :=
  { s with
    isstop := E.stopped s.iter s.x1 x2, iter := s.iter + 1
    x1 := x2, f1 := E.f x2, f2 := E.f x2, ngf1 := E.ngf x2, ngf2 := E.ngf x2, Delta := Delta
    xs := x2 :: s.xs, streak := 0 }

/-- The state after a rejected candidate, lines 101-109. -/
def St.reject (E : Env K X) (s : St K X) (x2 : X) (Delta : K) : St K X :=
  { s with
    iter := s.iter + 1, f2 := E.f x2, Delta := Delta, xs := s.x1 :: s.xs, streak := s.streak + 1 }

/-- The history writes at the end of the body, lines 111-116, and the print test of lines 95, 104. -/
def St.writeHist (C : Cfg K) (s : St K X) : Pass K X :=
  if C.record then
    if C.outputGap = 0 then .divByZero
    else if s.funSeries.length ≤ s.iter then .outOfBounds
    else .next { s with
      funSeries := s.funSeries.set s.iter (some s.f2), gradSeries := s.gradSeries.set s.iter (some s.ngf2) }
  else .next s

/-- One pass through the loop body, lines 38-117. -/
def pass (C : Cfg K) (E : Env K X) (s : St K X) : Pass K X :=
  let c := E.cand s.iter s.x1 s.Delta
  let f2 := E.f c.x2
  if !c.finite then .stop { s with f2 := f2 }
  else
    let rho := ratio s.f1 f2 c
    let acc := accurate C (E.ngf E.x0) s.ngf1
    match radius C rho c.status acc s.Delta with
    | none => .stop { s with f2 := f2, Delta := s.Delta * C.shrinked }
    | some D =>
      if accepts C rho c.status acc s.f1 f2 then (s.accept E c.x2 D).writeHist C
      else (s.reject E c.x2 D).writeHist C

inductive Outcome (K X : Type) where
  | running
  | outOfBounds
  | divByZero
  | finished (s : St K X)

/-- The loop, lines 37-117. -/
def loop (C : Cfg K) (E : Env K X) : Nat → St K X → Outcome K X
  | 0, _ => .running
  | n + 1, s =>
    if s.continues C then
      match pass C E s with
      | .outOfBounds => .outOfBounds
      | .divByZero => .divByZero
      | .stop s => .finished s
      | .next s => loop C E n s
    else .finished s

/-- `Run()` with `fuel` passes. -/
def run (C : Cfg K) (E : Env K X) (fuel : Nat) : Outcome K X := loop C E fuel (St.init C E)

end Verif.TRRun
