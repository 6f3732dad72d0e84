import Verif.Solver.LineSearch

/-!
# The "exact" line search

Model of `SolversSMLS::LinesearchExact`, `Solvers/SolversSMLS.cpp:393-462`: at most 20 steps of a secant (quasi-Newton) iteration for the objective along the
ray, each safeguarded by an Armijo backtracking of its own.

Simplifications: those of `Verif.Solver.LineSearch`. If the initial slope or the initial step size is zero the first division of the code is `0 / 0` or `c / 0`;
the result of the model is then `none`.
-/

namespace Verif.Solver

variable {K : Type} [Field K] [LinearOrder K]

/-- What `LinesearchExact` reads besides `LSParams`: `minstep` is the constant `100 sqrt(epsilon)` of line 396, `tol` the constant of lines 437-443 (`1e-2` or
`1e-6`), `ngf1` the norm of the gradient at the current iterate. -/
structure ExactPar (K : Type) extends LSParams K where
  minstep : K
  tol : K
  ngf1 : K

/-- Result of the inner backtracking: the factor `t`, and whether the loop was left by the `break` of line 423. -/
structure Inner (K : Type) where
  t : K
  gaveUp : Bool

/-- The inner loop, lines 412-424: the trial point is `a1 + t * dir`; after a reduction the trial is evaluated before the test on `t * LS_ratio`. -/
def exactInner (P : ExactPar K) (φ : Ray K) (a1 dir sf1 sgf1 : K) : Nat → K → Option (Inner K)
  | 0, _ => none
  | n + 1, t =>
    if φ.phi (a1 + t * dir) > sf1 + P.alpha * t * sgf1 * dir then
      let t' := t * P.r1
      if t' * P.r1 < P.minstep then some ⟨t', true⟩
      else exactInner P φ a1 dir sf1 sgf1 n t'
    else some ⟨t, false⟩

/-- The loop variables `a1`, `B`, `sgf1`, `sf1`. -/
structure ExactSt (K : Type) where
  a1 : K
  B : K
  sgf1 : K
  sf1 : K

/-- The members after a pass that ended at the step `st`: `x2`, `sf2`, `gf2`, `sgf2` all belong to `st` (lines 411/415 and 418/431/434). -/
def exactAt (φ : Ray K) (st : K) (status : Status) : Search K :=
  { step := st, pt := st, f2 := φ.phi st, gradAt := some st, newslope := some (φ.der st), status := status }

/-- The outer loop, lines 405-450. The first argument is `20 - times`; `fuel` bounds the inner loop of the model; `last` is what the previous pass left. The
Boolean is a ghost: did an inner search give up so far? -/
def exactLoop (P : ExactPar K) (φ : Ray K) (fuel : Nat) : Nat → ExactSt K → Search K × Bool → Option (Search K × Bool)
  | 0, _, last => some last
  | k + 1, S, last =>
    let dir := -S.sgf1 / S.B
    match exactInner P φ S.a1 dir S.sf1 S.sgf1 fuel 1 with
    | none => none
    | some i =>
      let st := S.a1 + i.t * dir
      let sgf2 := φ.der st
      if i.gaveUp ∧ |sgf2 / φ.slope| > 1 / 10 ∧ φ.phi st > φ.f0 + P.alpha * st * P.ngf1 then
        some (exactAt φ st .nonExact, true)
      else
        let s := i.t * dir
        let now := (exactAt φ st .success, last.2 || i.gaveUp)
        if |s| < P.minstep then some now
        else if |sgf2 / φ.slope| < P.tol then some now
        else
          let y := sgf2 - S.sgf1
          exactLoop P φ fuel k
            { a1 := S.a1 + i.t * dir, B := if y / s > 0 then y / s else S.B, sgf1 := sgf2, sf1 := φ.phi st }
            now

/-- Lines 452-459: the final tests on the step size. -/
def exactClassify (P : ExactPar K) (r : Search K) : Search K :=
  let r := if r.step ≤ P.minStep then { r with status := .minStepSize } else r
  if r.step ≥ P.maxStep then { r with status := .maxStepSize } else r

/-- `LinesearchExact`, lines 393-462, from the initial step `init`; the Boolean is the ghost of `exactLoop`. -/
def exactLS (P : ExactPar K) (φ : Ray K) (fuel : Nat) (init : K) : Option (Search K × Bool) :=
  if φ.slope = 0 ∨ init = 0 then none
  else
    (exactLoop P φ fuel 20 ⟨0, |φ.slope / init|, φ.slope, φ.f0⟩ (Search.start init 0 φ.f0, false)).map
      fun r => (exactClassify P r.1, r.2)

end Verif.Solver
