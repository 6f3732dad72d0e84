import Mathlib.Algebra.Order.Field.Basic
import Mathlib.Tactic.Linarith

/-!
# Subgradient line-search solvers

Models of `SolversNSMSubLS::Run` (`Solvers/SolversNSMSubLS.cpp:6-108`), `GetSearchDir` (lines 229-279),
`LinesearchWolfeLipschitz` (lines 319-350) and `ZoomLP` (lines 352-398); solvers RBFGSSub, LRBFGSSub, RGS.

The objective, the minimum-norm subproblem, the stopping test and the line search are arbitrary functions; theorems quantify over all of them.
Simplifications: exact arithmetic, except that products below `tiny` are flushed to zero when `Del` is shrunk (in exact arithmetic
the inner loop of lines 58-61 would not end for a zero direction); printing, timing and counters are not kept.
-/

namespace Verif.Sub

variable {K : Type}

/-! ## Search direction -/

/-- One probe of `GetSearchDir`: `nmin` is `nminPv`, the norm of the shortest vector in the hull of the `i+1` sampled gradients; `ndir` the norm of
the direction; `desc` whether `hb <= 0`. -/
structure Probe (K : Type) where
  nmin : K
  ndir : K
  desc : Bool

/-- `SolversNSMSubLS::GetSearchDir`, lines 229-279, as far as the member `ndir1` is concerned: it is assigned only in line 258, after the
return of line 254. `none` is an uninitialised value: no constructor and no initialisation routine of the solver assigns `ndir1`. -/
def searchDir [LinearOrder K] (Del : K) (probe : Nat → Probe K) : Nat → Nat → Option K → Option K
  | 0, _, nd => nd
  | n + 1, i, nd =>
    if (probe i).nmin ≤ Del then nd
    else if (probe i).desc then some (probe i).ndir
    else searchDir Del probe n (i + 1) (some (probe i).ndir)

/-! ## Main loop -/

structure Cfg (K : Type) where
  maxIter : Nat
  minIter : Nat
  outputGap : Nat
  record : Bool
  tolerance : K
  eps0 : K
  del0 : K
  minEps : K
  thetaEps : K
  thetaDel : K
  tiny : K
  /-- `Lengthgfs - 1` -/
  lenW : Nat

/-- Problem dependent part; `search iter Eps Del prev` is the value of `ndir1` after `GetSearchDir` (`none`: still uninitialised). Since the iterate changes
only with `iter`, it is a function of `iter`, the two parameters and the old value. `stop iter ndir1` is `IsStopped()`, `ls iter` whether the line search
left status success or maximum step. -/
structure Env (K : Type) where
  search : Nat → K → K → Option K → Option K
  stop : Nat → K → Bool
  ls : Nat → Bool

/-- The environment of the solvers that use the base-class direction (RBFGSSub, LRBFGSSub). -/
def sampledEnv [LinearOrder K] (lenW : Nat) (probe : Nat → K → K → Nat → Probe K) (stop : Nat → K → Bool) (ls : Nat → Bool) : Env K :=
  ⟨fun iter Eps Del prev => searchDir Del (probe iter Eps Del) lenW 0 prev, stop, ls⟩

structure St (K : Type) where
  iter : Nat
  isstop : Bool
  ok : Bool
  Eps : K
  Del : K
  ndir : Option K

inductive Pass (K : Type) where
  | running
  | uninitialised
  | divByZero
  | next (s : St K)

inductive Outcome (K : Type) where
  | running
  | uninitialised
  | divByZero
  | finished (s : St K)

variable [Field K] [LinearOrder K]

def St.init (C : Cfg K) : St K := ⟨0, false, true, C.eps0, C.del0, none⟩

/-- Line 40. -/
def St.continues (C : Cfg K) (s : St K) : Bool :=
  decide (s.iter < C.maxIter) && (!s.isstop || decide (s.iter < C.minIter) || decide (C.minEps < s.Eps)) && s.ok

/-- `Del *= Theta_del` with underflow. -/
def shrink (C : Cfg K) (Del : K) : K := if Del * C.thetaDel < C.tiny then 0 else Del * C.thetaDel

/-- The inner loop of lines 58-61. -/
def shrinkLoop (C : Cfg K) (v : K) : Nat → K → Option K
  | 0, _ => none
  | n + 1, Del => if |v| < Del then shrinkLoop C v n (shrink C Del) else some Del

/-- `Eps` after lines 50-51. -/
def shrinkEps (C : Cfg K) (Eps : K) : K := if C.minEps < Eps * C.thetaEps then Eps * C.thetaEps else C.minEps

/-- One pass, lines 42-107. -/
def pass (C : Cfg K) (E : Env K) (fuel : Nat) (s : St K) : Pass K :=
  match E.search s.iter s.Eps s.Del s.ndir with
  | none => .uninitialised
  | some v =>
    if |v| ≤ s.Del ∨ |v| ≤ C.tolerance then
      if C.minEps < shrinkEps C s.Eps then
        .next ⟨s.iter, E.stop s.iter v, s.ok, shrinkEps C s.Eps, shrink C s.Del, some v⟩
      else
        match shrinkLoop C v fuel s.Del with
        | none => .running
        | some D => .next ⟨s.iter, E.stop s.iter v, s.ok, shrinkEps C s.Eps, D, some v⟩
    else if C.record && C.outputGap == 0 then .divByZero
    else .next ⟨s.iter + 1, E.stop s.iter v, E.ls s.iter, s.Eps, s.Del, some v⟩

def loop (C : Cfg K) (E : Env K) (fuel : Nat) : Nat → St K → Outcome K
  | 0, _ => .running
  | n + 1, s =>
    if s.continues C then
      match pass C E fuel s with
      | .running => .running
      | .uninitialised => .uninitialised
      | .divByZero => .divByZero
      | .next s => loop C E fuel n s
    else .finished s

def run (C : Cfg K) (E : Env K) (fuel n : Nat) : Outcome K := loop C E fuel n (St.init C)

/-! ## Line search -/

inductive LSStatus where
  | noCurvature | minStep | maxStep | success
  deriving DecidableEq

structure LSCfg (K : Type) where
  alpha : K
  beta : K
  minStep : K
  maxStep : K

/-- Final step size, the step of the last trial point (`x2`, `f2`, and `gf2` belong to it) and status. -/
structure LSRes (K : Type) where
  step : K
  trial : K
  status : LSStatus
  deriving DecidableEq

/-- `ZoomLP`, lines 352-398; `trial` is the step of the current trial point. -/
def zoom (C : LSCfg K) (phi dphi : K → K) (f1 slope : K) : Nat → K → K → K → Nat → Option (LSRes K)
  | 0, _, _, _, _ => none
  | n + 1, a, b, trial, times =>
    let step := (a + b) / 2
    if step < C.minStep then some ⟨step, trial, .minStep⟩
    else if 0 < phi step - f1 - C.alpha * slope * step then zoom C phi dphi f1 slope n a step step (times + 1)
    else if C.beta * slope ≤ dphi step then some ⟨step, step, .success⟩
    else if 30 ≤ times then some ⟨step, step, .noCurvature⟩
    else zoom C phi dphi f1 slope n step b step (times + 1)

/-- The loop of `LinesearchWolfeLipschitz`, lines 323-342. -/
def wolfeLoop (C : LSCfg K) (phi dphi : K → K) (f1 slope : K) (zf : Nat) : Nat → K → K → Option (LSRes K)
  | 0, _, _ => none
  | n + 1, pre, step =>
    if 0 < phi step - f1 - C.alpha * slope * step then zoom C phi dphi f1 slope zf pre step step 0
    else if C.beta * slope ≤ dphi step then some ⟨step, step, .success⟩
    else
      let step' := if 2 * step < C.maxStep then 2 * step else C.maxStep
      if step' = C.maxStep then some ⟨step', step, .success⟩
      else wolfeLoop C phi dphi f1 slope zf n step step'

/-- The status tests of lines 343-350. -/
def finalStatus (C : LSCfg K) (r : LSRes K) : LSRes K :=
  let st := if r.step ≤ C.minStep then .minStep else r.status
  { r with status := if C.maxStep ≤ r.step then .maxStep else st }

/-- `LinesearchWolfeLipschitz` with initial step 1 (line 72). -/
def wolfeLip (C : LSCfg K) (phi dphi : K → K) (f1 slope : K) (zf n : Nat) : Option (LSRes K) :=
  (wolfeLoop C phi dphi f1 slope zf n 0 1).map (finalStatus C)

end Verif.Sub
