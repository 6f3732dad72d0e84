import Mathlib.Algebra.Order.Field.Basic
import Mathlib.Tactic.Linarith

/-!
# Proximal-gradient solvers

Models of `SolversNSMPGLS::LinesearchArmijo` (`Solvers/SolversNSMPGLS.cpp:61-82`), `ManPG::Run`
(`Solvers/ManPG.cpp:23-157`) and `AManPG::Run` (`Solvers/AManPG.cpp:88-252`).

The proximal subproblem (`TangentSpaceProximalMap`), the retraction, the objective, the gradient and the stopping test are
arbitrary functions; theorems quantify over all of them. Simplifications: exact arithmetic; printing, timing, counters and the
adaptive Lipschitz factor (an input of the subproblem only) are not kept; history arrays are represented by their length and the
list of indices written.
-/

namespace Verif.PG

variable {K X : Type}

/-- Line-search parameters, `SolversNSMPGLS.cpp:21-38`. -/
structure LSCfg (K : Type) where
  alpha : K
  ratio : K
  minStep : K

/-- Result of a line search: `LSPG_SUCCESS` or `LSPG_MINSTEPSIZE`, final step size, the step at which the stored trial point and value
were computed. -/
structure LSRes (K : Type) where
  ok : Bool
  step : K
  /-- the step size of the last trial point -/
  trial : K
  deriving DecidableEq

/-- The backtracking loop, `SolversNSMPGLS.cpp:61-82`. `phi t` is the objective at the point reached with step `t`; the loop is entered
with the trial at `step` computed. `none`: the fuel ran out. -/
def armijo [Field K] [LinearOrder K] (C : LSCfg K) (phi : K → K) (f1 slope : K) : Nat → K → Option (LSRes K)
  | 0, _ => none
  | n + 1, step =>
    if f1 - phi step < -C.alpha * slope * step then
      let step' := step * C.ratio
      if step' < C.minStep then some ⟨false, step', step⟩
      else armijo C phi f1 slope n step'
    else some ⟨true, step, step⟩

/-- Problem dependent part. `slope x tol lam` is `initialslope`, the inner product of the smooth gradient with the direction found by
the proximal subproblem at `x` with accuracies `tol`, `lam`; `path x tol lam t` the point reached from `x` with step `t`. -/
structure Env (K X : Type) where
  x0 : X
  f : X → K
  finite : X → Bool
  slope : Nat → X → K → K → K
  path : Nat → X → K → K → K → X
  stopped : Nat → X → X → Bool
  stopped0 : Bool

/-- Parameters of a run. `fTol`, `fLam` are the values the code stores as floors, `cTol`, `cLam` the constants it compares with
(`ManPG.cpp:79-84`, `AManPG.cpp:151-156`): in double precision they coincide; `AManPG.cpp:151` compares with double constants also when the
library is built in single precision. -/
structure Cfg (K : Type) extends LSCfg K where
  maxIter : Nat
  minIter : Nat
  outputGap : Nat
  record : Bool
  tol0 : K
  lam0 : K
  fTol : K
  fLam : K
  cTol : K
  cLam : K
  /-- `SGIterGap` (accelerated solver) -/
  gap : Nat

/-- State of `ManPG::Run`. -/
structure St (K X : Type) where
  iter : Nat
  isstop : Bool
  x1 : X
  f1 : K
  tol : K
  lam : K
  /-- ghost: number of refinements so far -/
  refs : Nat
  /-- ghost: iterates, newest first -/
  xs : List X

inductive Pass (σ : Type) where
  | running
  | outOfBounds
  | divByZero
  | stop (s : σ)
  | next (s : σ)

inductive Outcome (σ : Type) where
  | running
  | outOfBounds
  | divByZero
  | finished (s : σ)

variable [Field K] [LinearOrder K]

/-- The accuracies after a failed search, `ManPG.cpp:83-84`. -/
def refineTol (C : Cfg K) (tol : K) : K := if C.fTol < tol * (1 / 100) then tol * (1 / 100) else C.fTol

def refineLam (C : Cfg K) (lam : K) : K := if C.fLam < lam * (1 / 10) then lam * (1 / 10) else C.fLam

def St.init (C : Cfg K) (E : Env K X) : St K X :=
  ⟨0, E.stopped0, E.x0, E.f E.x0, C.tol0, C.lam0, 0, [E.x0]⟩

/-- `ManPG.cpp:57`. (`LSstatus` is always "success" at the loop head.) -/
def St.continues (C : Cfg K) (s : St K X) : Bool :=
  (!s.isstop && decide (s.iter < C.maxIter)) || decide (s.iter < C.minIter)

/-- The objective along the search curve. -/
def Env.phi (E : Env K X) (iter : Nat) (x : X) (tol lam : K) (t : K) : K := E.f (E.path iter x tol lam t)

/-- History writes and the print test, `ManPG.cpp:121-133`; the arrays have `1 + Max_Iteration` cells. -/
def record (C : Cfg K) (iter : Nat) {σ : Type} (s : σ) : Pass σ :=
  if C.record then
    if C.outputGap = 0 then .divByZero
    else if C.maxIter + 1 ≤ iter then .outOfBounds
    else .next s
  else .next s

/-- One pass of `ManPG::Run`, lines 58-139; `lsFuel` bounds the line search of the model. -/
def pass (C : Cfg K) (E : Env K X) (lsFuel : Nat) (s : St K X) : Pass (St K X) :=
  match armijo C.toLSCfg (E.phi s.iter s.x1 s.tol s.lam) s.f1 (E.slope s.iter s.x1 s.tol s.lam) lsFuel 1 with
  | none => .running
  | some r =>
    let x2 := E.path s.iter s.x1 s.tol s.lam r.trial
    if !r.ok then
      if s.lam = C.cLam ∧ s.tol = C.cTol then .stop s
      else .next { s with tol := refineTol C s.tol, lam := refineLam C s.lam, refs := s.refs + 1 }
    else if !E.finite x2 then .stop s
    else record C (s.iter + 1)
      ⟨s.iter + 1, E.stopped (s.iter + 1) s.x1 x2, x2, E.f x2, s.tol, s.lam, s.refs, x2 :: s.xs⟩

/-- The loop, `ManPG.cpp:57-140`. -/
def loop (C : Cfg K) (E : Env K X) (lsFuel : Nat) : Nat → St K X → Outcome (St K X)
  | 0, _ => .running
  | n + 1, s =>
    if s.continues C then
      match pass C E lsFuel s with
      | .running => .running
      | .outOfBounds => .outOfBounds
      | .divByZero => .divByZero
      | .stop s => .finished s
      | .next s => loop C E lsFuel n s
    else .finished s

def run (C : Cfg K) (E : Env K X) (lsFuel fuel : Nat) : Outcome (St K X) := loop C E lsFuel fuel (St.init C E)

/-! ## The accelerated solver -/

/-- Environment of the accelerated solver: `Y` is the state of the acceleration (`y1`, `gfy1`, `s1`), `restart x` its value after a
restart at `x`, `zNext`, `yNext` the accelerated step (lines 206-220). -/
structure AEnv (K X Y : Type) extends Env K X where
  restart : X → Y
  zNext : Nat → X → Y → K → K → X
  yNext : Nat → X → Y → K → K → Y

/-- State of `AManPG::Run`. -/
structure ASt (K X Y : Type) where
  iter : Nat
  isstop : Bool
  x1 : X
  f1 : K
  f2 : K
  z1 : X
  /-- `fz2`: objective at the point that is now `z1` (uninitialised, `none`, before the first pass) -/
  fz2 : Option K
  y1 : Y
  tol : K
  lam : K
  refs : Nat
  /-- ghost: the safeguard iterates `x1`, newest first -/
  xs : List X
  /-- ghost: the objective values written to the history, newest first -/
  hist : List K

variable {Y : Type}

def ASt.init (C : Cfg K) (E : AEnv K X Y) : ASt K X Y :=
  ⟨0, E.stopped0, E.x0, E.f E.x0, E.f E.x0, E.x0, none, E.restart E.x0, C.tol0, C.lam0, 0, [E.x0], [E.f E.x0]⟩

def ASt.continues (C : Cfg K) (s : ASt K X Y) : Bool :=
  (!s.isstop && decide (s.iter < C.maxIter)) || decide (s.iter < C.minIter)

/-- The end of a pass, lines 203-240: accelerated step, stopping test, counter, history, exchange of the variables. -/
def accel (C : Cfg K) (E : AEnv K X Y) (s : ASt K X Y) : Pass (ASt K X Y) :=
  let z2 := E.zNext s.iter s.z1 s.y1 s.tol s.lam
  record C (s.iter + 1)
    { s with
      iter := s.iter + 1, isstop := E.stopped s.iter s.x1 z2, z1 := z2, fz2 := some (E.f z2)
      y1 := E.yNext s.iter s.z1 s.y1 s.tol s.lam, hist := s.f2 :: s.hist }

/-- The safeguard, lines 186-199: the candidate `x2` replaces the accelerated iterate if its value is smaller, then the safeguard iterate
is moved to the accelerated one. -/
def safeguard (E : AEnv K X Y) (s : ASt K X Y) (x2 : X) : ASt K X Y :=
  let better := match s.fz2 with
    | some fz => decide (s.iter ≠ 0) && decide (E.f x2 < fz)
    | none => false
  let z := if better then x2 else s.z1
  let y := if better then E.restart x2 else s.y1
  { s with x1 := z, f1 := E.f z, f2 := E.f x2, z1 := z, y1 := y, xs := z :: s.xs }

/-- One pass of `AManPG::Run`, lines 130-241. -/
def apass (C : Cfg K) (E : AEnv K X Y) (lsFuel : Nat) (s : ASt K X Y) : Pass (ASt K X Y) :=
  if C.gap = 0 then .divByZero
  else if s.iter % C.gap = 0 then
    match armijo C.toLSCfg (E.phi s.iter s.x1 s.tol s.lam) s.f1 (E.slope s.iter s.x1 s.tol s.lam) lsFuel 1 with
    | none => .running
    | some r =>
      let x2 := E.path s.iter s.x1 s.tol s.lam r.trial
      if !r.ok then
        if s.lam = C.cLam ∧ s.tol = C.cTol then .stop s
        else .next { s with tol := refineTol C s.tol, lam := refineLam C s.lam, refs := s.refs + 1 }
      else if !E.finite x2 then .stop s
      else accel C E (safeguard E s x2)
  else accel C E s

def aloop (C : Cfg K) (E : AEnv K X Y) (lsFuel : Nat) : Nat → ASt K X Y → Outcome (ASt K X Y)
  | 0, _ => .running
  | n + 1, s =>
    if s.continues C then
      match apass C E lsFuel s with
      | .running => .running
      | .outOfBounds => .outOfBounds
      | .divByZero => .divByZero
      | .stop s => .finished s
      | .next s => aloop C E lsFuel n s
    else .finished s

def arun (C : Cfg K) (E : AEnv K X Y) (lsFuel fuel : Nat) : Outcome (ASt K X Y) := aloop C E lsFuel fuel (ASt.init C E)

end Verif.PG
