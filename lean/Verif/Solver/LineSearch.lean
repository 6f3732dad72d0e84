import Mathlib.Algebra.Order.Field.Basic
import Mathlib.Tactic.Linarith
import Mathlib.Tactic.NormNum

/-!
# Line searches of the smooth line-search solvers

Model of the one-dimensional searches of `Solvers/SolversSMLS.cpp`.

Simplifications that hold for the whole file.
* Numbers are elements of an arbitrary linearly ordered field `K` (exact arithmetic).
  The objective along the search ray is an arbitrary function `phi`; it never returns NaN
  or an infinity (`Run` breaks out when it does, see `Verif.Solver.Run`).
* The polynomial interpolation formulas are replaced by arbitrary functions (`Interp`) that
  may also return "not a number" (`none`; e.g. the square root of a negative number, a
  division by zero or an infinity).  Every theorem therefore holds whatever the formulas
  return; the clamps that follow the formulas are modelled exactly, including the direction
  in which a NaN falls through the `?:` operators.
* Printing and the counters `nf`, `ng`, `nR`, `nV` are not modelled.
-/

namespace Verif.Solver

variable {K : Type} [Field K] [LinearOrder K]

/-- The line-search parameters.  `Solvers/SolversSMLS.cpp:655-680` (defaults) and 810-892. -/
structure LSParams (K : Type) where
  /-- `LS_alpha` -/
  alpha : K
  /-- `LS_beta` -/
  beta : K
  /-- `LS_ratio1` -/
  r1 : K
  /-- `LS_ratio2` -/
  r2 : K
  /-- `Minstepsize` -/
  minStep : K
  /-- `Maxstepsize` -/
  maxStep : K
  /-- `Num_pre_funs` -/
  numPre : Nat

/-- The objective along the search direction: `phi t = f (R_x (t eta))`, `der` its slope as
computed by `dh` (`SolversSMLS.cpp:463-479`), `f0` the value `f1` at the current iterate and
`slope` the value `initialslope` (`SolversSMLS.cpp:50`). -/
structure Ray (K : Type) where
  f0 : K
  slope : K
  phi : K → K
  der : K → K

/-- `LSSTATUSSETSM`, `Solvers/SolversSMLS.h`. -/
inductive Status where
  | noCurvature | minStepSize | maxStepSize | nonExact | lsError | success
  deriving DecidableEq, Repr

/-- The member variables a line search leaves behind: the step size `stepsize`; the step `pt` at
which `eta2`, `x2` were last computed; the value `f2`; the step at which `gf2` was last
computed; `newslope` (`none` is `INFINITY` or "not set"); `LSstatus`. -/
structure Search (K : Type) where
  step : K
  pt : K
  f2 : K
  gradAt : Option K
  newslope : Option K
  status : Status

/-- State on entry of a line search with initial step `t`: `x2`, `f2`, `gf2` still belong to
the previous iteration, which is recorded as "gradient not computed". -/
def Search.start (t : K) (pt0 f20 : K) : Search K :=
  { step := t, pt := pt0, f2 := f20, gradAt := none, newslope := none, status := .success }

/-- `h()`, `SolversSMLS.cpp:463-469`: sets `eta2 = stepsize * eta1`, `x2 = R(x1, eta2)` and
returns the value there, which every caller stores in `f2`. -/
def evalH (φ : Ray K) (s : Search K) : Search K :=
  { s with pt := s.step, f2 := φ.phi s.step }

/-- `dh()`, `SolversSMLS.cpp:471-479`: computes `gf2` at the current `x2` and returns the slope
there, which every caller below stores in `newslope`. -/
def evalDh (φ : Ray K) (s : Search K) : Search K :=
  { s with gradAt := some s.pt, newslope := some (φ.der s.pt) }

/-- `Prob->Grad(x2, &gf2)`. -/
def evalGrad (s : Search K) : Search K := { s with gradAt := some s.pt }

/-- The interpolation formulas, `SolversSMLS.cpp:346` (`quad`), 360-369 (`cubic`), 528 (`zoom`),
508 (`extend`), 736 (`wolfeIncr`), 778-795 (`wolfeStep`).  Arbitrary functions of everything the code
can see; `none` stands for a NaN. -/
structure Interp (K : Type) where
  quad : K → K → Option K
  cubic : K → K → K → K → Option K
  zoom : K → K → Option K → Option K → K → Option K
  extend : K → K → Option K
  wolfeIncr : K → K → K → K → K
  wolfeStep : K → K → K → K → K

/-! ## Armijo -/

/-- Loop computing `maxpref`, `SolversSMLS.cpp:314-325`: at most `Num_pre_funs` entries of
`pre_funs` from the front, never the last one. -/
def maxPref : Nat → K → List K → K
  | 0, m, _ => m
  | _ + 1, m, [] => m
  | _ + 1, m, [_] => m
  | n + 1, m, a :: b :: rest => maxPref n (if m < a then a else m) (b :: rest)

/-- Simple backtracking, `SolversSMLS.cpp:330-345`.  Fuel counts loop tests; `none` = fuel used
up. -/
def backtrack (P : LSParams K) (φ : Ray K) (ref : K) : Nat → Search K → Option (Search K)
  | 0, _ => none
  | n + 1, s =>
    if ref - s.f2 < -P.alpha * φ.slope * s.step then
      let s1 : Search K := { s with step := s.step * P.r1 }
      if s1.step < P.minStep then some { s1 with status := .minStepSize }
      else backtrack P φ ref n (evalH φ s1)
    else some s

/-- The two clamps after an interpolation, `SolversSMLS.cpp:347-348` and 370-371: a NaN fails
the first comparison and becomes `hi`. -/
def clampHiLo (hi lo : K) (q : Option K) : K :=
  let v := match q with
    | some v => if v < hi then v else hi
    | none => hi
  if v > lo then v else lo

/-- The interpolation loop, `SolversSMLS.cpp:356-386`. `pre2`, `fpre` are `prestepsize2`,
`f2pre`; `prestepsize` equals `stepsize` at the loop test. -/
def polyLoop (P : LSParams K) (φ : Ray K) (I : Interp K) (ref : K) :
    Nat → K → K → Search K → Option (Search K)
  | 0, _, _, _ => none
  | n + 1, pre2, fpre, s =>
    if ref - s.f2 < -P.alpha * φ.slope * s.step then
      let t := clampHiLo (P.r2 * s.step) (P.r1 * s.step) (I.cubic s.step pre2 s.f2 fpre)
      let s1 : Search K := { s with step := t }
      if t < P.minStep then some { s1 with status := .minStepSize }
      else polyLoop P φ I ref n s.step s.f2 (evalH φ s1)
    else some s

/-- The first, quadratic, interpolation of the interpolating variant, `SolversSMLS.cpp:343-353`: done
at most once and without a test against `Minstepsize`. -/
def armijoFirst (P : LSParams K) (φ : Ray K) (I : Interp K) (ref : K) (s : Search K) : Search K :=
  if ref - s.f2 < -P.alpha * φ.slope * s.step then
    evalH φ { s with step := clampHiLo (P.r2 * s.step) (P.r1 * s.step) (I.quad s.step s.f2) }
  else s

/-- `LinesearchArmijo`, `SolversSMLS.cpp:307-391`; `pre` is the list `pre_funs`, front first. -/
def armijo (P : LSParams K) (φ : Ray K) (I : Interp K) (pre : List K) (fuel : Nat)
    (s0 : Search K) : Option (Search K) :=
  let s := evalH φ { s0 with status := .success }
  let ref := maxPref P.numPre φ.f0 pre
  if P.r2 ≤ P.r1 then
    (backtrack P φ ref fuel s).map (evalDh φ)
  else
    (polyLoop P φ I ref fuel s.step s.f2 (armijoFirst P φ I ref s)).map
      fun r => { evalGrad r with newslope := none }

/-! ## Strong Wolfe -/

/-- `f2 >= fxlo` where `none` stands for `numeric_limits::max()`. -/
def geOpt (v : K) : Option K → Bool
  | none => false
  | some w => w ≤ v

/-- The clamps of `Zoom`, `SolversSMLS.cpp:529-530`: a NaN passes the first and becomes
`hi` in the second. -/
def clampLoHi (lo hi : K) (q : Option K) : K :=
  match q with
  | none => hi
  | some v =>
    let v1 := if v < lo then lo else v
    if v1 < hi then v1 else hi

/-- Is the sufficient decrease test violated at the current trial, `SolversSMLS.cpp:491`,
538, 700. -/
def violates (P : LSParams K) (φ : Ray K) (s : Search K) : Prop :=
  φ.f0 + P.alpha * s.step * φ.slope < s.f2

instance (P : LSParams K) (φ : Ray K) (s : Search K) : Decidable (violates P φ s) := by
  unfold violates; infer_instance

/-- `Zoom`, `SolversSMLS.cpp:519-564`.  The first argument is the number of trials still
allowed: the code sets `times` to 0, increments it before each trial and gives up when it
reaches 10, so 9 trials are made.  Note that on giving up `stepsize` has already been changed
but `x2`, `f2` have not. -/
def zoom (P : LSParams K) (φ : Ray K) (I : Interp K) :
    Nat → K → K → Option K → Option K → K → Search K → Search K
  | k, xlo, xhi, fxlo, fxhi, slo, s =>
    let xdiff := xhi - xlo
    let xincr := clampLoHi (xdiff * P.r1) (xdiff * P.r2) (I.zoom xlo xhi fxlo fxhi slo)
    let s := { s with step := xlo + xincr }
    match k with
    | 0 => { s with status := .lsError }
    | k + 1 =>
      let s := evalH φ s
      if violates P φ s ∨ geOpt s.f2 fxlo then
        if s.step ≤ P.minStep then { s with status := .minStepSize }
        else zoom P φ I k xlo s.step fxlo (some s.f2) slo s
      else
        let d := φ.der s.step
        let s := evalDh φ s
        if |d| ≤ -P.beta * φ.slope then s
        else
          let hi := if 0 ≤ d * (xhi - xlo) then (xlo, fxlo) else (xhi, fxhi)
          if s.step ≤ P.minStep then { s with status := .minStepSize }
          else zoom P φ I k s.step hi.1 (some s.f2) hi.2 d s

/-- The extension of the step, `SolversSMLS.cpp:508-510`. A NaN fails the comparison and the
step becomes `1.1 * stepsize`. -/
def extendStep (P : LSParams K) (I : Interp K) (t f2 : K) : K :=
  let u := match I.extend t f2 with
    | none => (11 / 10) * t
    | some v => if (11 / 10) * t < v then v else (11 / 10) * t
  if u < P.maxStep then u else P.maxStep

/-- Main loop of `LinesearchStrongWolfe`, `SolversSMLS.cpp:487-511`. `fpre = none` is the
initial `numeric_limits::max()`. -/
def strongWolfeLoop (P : LSParams K) (φ : Ray K) (I : Interp K) :
    Nat → K → Option K → K → Search K → Option (Search K)
  | 0, _, _, _, _ => none
  | n + 1, pre, fpre, slopepre, s =>
    let s := evalH φ s
    if violates P φ s ∨ geOpt s.f2 fpre then
      some (zoom P φ I 9 pre s.step fpre (some s.f2) slopepre s)
    else
      let d := φ.der s.step
      let s := evalDh φ s
      if |d| ≤ -P.beta * φ.slope then some s
      else if 0 ≤ d then some (zoom P φ I 9 s.step pre (some s.f2) fpre d s)
      else if s.step = P.maxStep then some { s with status := .maxStepSize }
      else strongWolfeLoop P φ I n s.step (some s.f2) d
        { s with step := extendStep P I s.step s.f2 }

/-- `LinesearchStrongWolfe`, `SolversSMLS.cpp:482-517`. -/
def strongWolfe (P : LSParams K) (φ : Ray K) (I : Interp K) (fuel : Nat) (s0 : Search K) :
    Option (Search K) :=
  strongWolfeLoop P φ I fuel 0 none φ.slope { s0 with status := .success }

/-! ## Weak Wolfe -/

/-- Is the slope at the current trial still too negative: `newslope < LS_beta * initialslope`.
`none` (never computed) compares false like the stale value it stands for is never reached. -/
def steep (P : LSParams K) (φ : Ray K) (s : Search K) : Prop :=
  match s.newslope with
  | none => False
  | some d => d < P.beta * φ.slope

instance (P : LSParams K) (φ : Ray K) (s : Search K) : Decidable (steep P φ s) := by
  unfold steep; split <;> infer_instance

/-- The doubling loop, `SolversSMLS.cpp:706-719`.  The first argument is the number of passes
still allowed (the code breaks when `times` exceeds 10, i.e. after 11 passes); the result also
carries `prestepsize` and `f2pre`. -/
def doubling (P : LSParams K) (φ : Ray K) : Nat → K → K → Search K → K × K × Search K
  | 0, pre, fpre, s => (pre, fpre, s)
  | k + 1, pre, fpre, s =>
    if ¬ violates P φ s ∧ steep P φ s ∧ s.step < P.maxStep then
      let s1 := evalH φ { s with step := if 2 * s.step < P.maxStep then 2 * s.step else P.maxStep }
      let s2 := if violates P φ s1 then s1 else evalDh φ s1
      doubling P φ k s.step s.f2 s2
    else (pre, fpre, s)

/-- The bracketing loop, `SolversSMLS.cpp:741-764` (at most 11 passes).  When the slope is still
too steep the lower end moves, otherwise the loop test fails in the next pass. -/
def bracketing (P : LSParams K) (φ : Ray K) (I : Interp K) :
    Nat → K → K → K → K → Search K → Search K
  | 0, _, _, _, _, s => s
  | k + 1, lo, diff, flo, fhi, s =>
    if (violates P φ s ∨ steep P φ s) ∧ P.minStep ≤ diff then
      let q := I.wolfeIncr (s.newslope.getD 0) diff flo fhi
      let incr := if q < (2 / 10) * diff then (2 / 10) * diff else q
      let s1 := evalH φ { s with step := lo + incr }
      if violates P φ s1 then bracketing P φ I k lo incr flo s1.f2 s1
      else
        let s2 := evalDh φ s1
        if steep P φ s2 then bracketing P φ I k s2.step (diff - incr) s2.f2 fhi s2
        else bracketing P φ I k lo diff flo fhi s2
    else s

/-- The step reduction, `SolversSMLS.cpp:778-800`. -/
def wolfeReduce (I : Interp K) (init t f2 pre fpre : K) : K :=
  let q := I.wolfeStep t f2 pre fpre
  let q1 := if t = init then q else if (5 / 10) * t < q then (5 / 10) * t else q
  if q1 ≤ (1 / 100) * t then (1 / 100) * t else q1

/-- The part of `LinesearchWolfe` after the first trial with sufficient decrease,
`SolversSMLS.cpp:702-773`. `init` is `initiallength`. -/
def wolfeFound (P : LSParams K) (φ : Ray K) (I : Interp K) (init pre fpre : K) (s : Search K) :
    Search K :=
  let s := evalDh φ s
  if steep P φ s then
    match doubling P φ 11 pre fpre s with
    | (pre, fpre, s) =>
      if P.maxStep ≤ s.step then { evalGrad s with status := .maxStepSize }
      else if s.step ≠ init ∧ violates P φ s then
        let lo := if s.step < pre then s.step else pre
        let flo := if s.step < pre then s.f2 else fpre
        let fhi := if s.step < pre then fpre else s.f2
        let s := bracketing P φ I 11 lo |pre - s.step| flo fhi s
        if steep P φ s then { evalDh φ (evalH φ s) with status := .noCurvature }
        else { s with status := .success }
      else { s with status := .success }
  else { s with status := .success }

/-- Outer loop of `LinesearchWolfe`, `SolversSMLS.cpp:696-806`. -/
def wolfeLoop (P : LSParams K) (φ : Ray K) (I : Interp K) (init : K) :
    Nat → K → K → Search K → Option (Search K)
  | 0, _, _, _ => none
  | n + 1, pre, fpre, s =>
    let s := evalH φ s
    if violates P φ s then
      if s.step ≤ P.minStep then
        some { evalDh φ (evalH φ { s with step := P.minStep }) with status := .minStepSize }
      else
        wolfeLoop P φ I init n s.step s.f2
          { s with step := wolfeReduce I init s.step s.f2 pre fpre }
    else some (wolfeFound P φ I init pre fpre s)

/-- `LinesearchWolfe`, `SolversSMLS.cpp:688-808`; `initiallength` is the step on entry
(`SolversSMLS.cpp:53`). -/
def wolfe (P : LSParams K) (φ : Ray K) (I : Interp K) (fuel : Nat) (s0 : Search K) :
    Option (Search K) :=
  wolfeLoop P φ I s0.step fuel 0 0 { s0 with status := .success }

end Verif.Solver
