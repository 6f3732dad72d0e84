import Verif.Solver.LineSearch
import Verif.Solver.Run
import Verif.Solver.Control
import Mathlib.Data.Real.Basic

/-!
# A line-search run with its iterates

`Verif.Solver.Run` models the control flow of `SolversSMLS::Run` for an arbitrary outcome of each search.  Here the outcomes are
produced by the searches of `Verif.Solver.LineSearch` along the search directions from the iterates, and the stopping test by
`SolversSM::IsStopped`, so a run is a sequence of points.

The manifold and the objective are arbitrary functions on a type of points.  What the solver computes from its memory (direction,
initial step, interpolation constants) is an arbitrary function of everything that happened before.  Simplifications: exact real
arithmetic, the objective has finite values; the user's line search (`LSSM_INPUTFUN`) and the exact one are not included.
-/

namespace Verif.Solver

/-- Objective and manifold as the line-search solvers see them: value, norm of the gradient, inner product of gradient and direction
(`initialslope`, SolversSMLS.cpp:50), the point `R_x(t eta)` (463-469) and the slope there (471-479). -/
structure Land (X V : Type) where
  f : X → ℝ
  gnorm : X → ℝ
  slope : X → V → ℝ
  move : X → V → ℝ → X
  der : X → V → ℝ → ℝ

/-- The objective along a direction. -/
def Land.ray {X V : Type} (M : Land X V) (x : X) (d : V) (f1 : ℝ) : Ray ℝ :=
  { f0 := f1, slope := M.slope x d, phi := fun t => M.f (M.move x d t), der := M.der x d }

/-- The searches chosen by `ChooseLinesearch`, SolversSMLS.cpp:156-197. -/
inductive LSKind | armijo | wolfe | strongWolfe

/-- Parameters of a run. `ls.numPre` is overwritten by `run.numPre` (both are `Num_pre_funs`). -/
structure LSCfg where
  run : RunCfg
  ls : LSParams ℝ
  kind : LSKind
  crit : Crit
  tol : ℝ
  accuracy : ℝ
  finalStep : ℝ
  preFunsAcc : ℝ

/-- The past of a run: iterates and accepted steps, newest first. -/
abbrev Past (X : Type) := List (X × ℝ)

/-- What a solver derives from its past: `GetSearchDir`, `InitialStepSize`, the interpolation formulas, whether the time is up after
iteration `k`, the answer of the user's stopping function, and the norm of whatever the gradient buffer contains when a failed search has not
computed it. -/
structure Oracle (X V : Type) where
  dir : Past X → V
  init : Past X → ℝ
  interp : Past X → Interp ℝ
  timeUp : ℕ → Bool
  callback : Option (Past X → Bool)
  stale : Past X → ℝ

/-- State of a run. -/
structure LSState (X : Type) where
  rs : RunState ℝ
  x : X
  ngf : ℝ
  past : Past X

open Classical in
/-- A loop with fuel, run to its end: the result for the first sufficient fuel, `none` if it never ends. -/
noncomputable def settled {α : Type} (g : ℕ → Option α) : Option α :=
  if h : ∃ n, (g n).isSome then g (Nat.find h) else none

/-- Lines 58-92 of SolversSMLS.cpp: a fixed step when accurate enough, otherwise the line search. -/
noncomputable def LSCfg.search (C : LSCfg) (φ : Ray ℝ) (I : Interp ℝ) (pre : List ℝ) (ngf ngf0 init : ℝ) : Option (Search ℝ) :=
  let P := { C.ls with numPre := C.run.numPre }
  if ngf / (ngf0 + C.tol) < C.accuracy then
    some (evalGrad (evalH φ (Search.start (if 0 < C.finalStep then C.finalStep else init) 0 φ.f0)))
  else
    let s0 := Search.start init 0 φ.f0
    settled fun n => match C.kind with
      | .armijo => armijo P φ I pre n s0
      | .wolfe => wolfe P φ I n s0
      | .strongWolfe => strongWolfe P φ I n s0

/-- The stopping test after an iteration (SolversSMLS.cpp:112, SolversSM.cpp:54-73). -/
noncomputable def LSCfg.stop {X V : Type} (C : LSCfg) (O : Oracle X V) (past : Past X) (iter : ℕ) (f1 f2 ngf0 ngf2 : ℝ) : Bool :=
  isStopped { elapsed := if O.timeUp iter then 1 else 0, timeBound := 0, callback := O.callback.map (· past), crit := C.crit, tol := C.tol
              iter := iter, f1 := f1, f2 := f2, ngf0 := ngf0, ngf2 := ngf2 }

/-- The environment of `Verif.Solver.pass` for a finished search `r` whose gradient has norm `ngf2`. -/
noncomputable def LSCfg.env {X V : Type} (C : LSCfg) (O : Oracle X V) (past : Past X) (r : Search ℝ) (init f1 ngf0 ngf2 : ℝ) : RunEnv ℝ where
  finit := f1
  trial _ _ _ := ⟨decide (r.status = .success), r.f2, true, init⟩
  stopped k := C.stop O past k f1 r.f2 ngf0 ngf2
  nonmono _ := decide (ngf2 / (ngf0 + C.tol) ≤ C.preFunsAcc)

/-- How a run with iterates can end. -/
inductive LSOutcome (X : Type) where
  | running
  | hang
  | outOfBounds
  | divByZero
  | finished (s : LSState X)

variable {X V : Type}

/-- The norm `ngf2` after a search: of the gradient at the step where it was last computed, or of an old one (SolversSMLS.cpp:106). -/
def gradNormAt (M : Land X V) (O : Oracle X V) (s : LSState X) (r : Search ℝ) : ℝ :=
  match r.gradAt with
  | some t => M.gnorm (M.move s.x (O.dir s.past) t)
  | none => O.stale s.past

/-- The loop of `SolversSMLS::Run`, SolversSMLS.cpp:47-139. `hang`: a search that does not end. -/
noncomputable def lsLoop (M : Land X V) (C : LSCfg) (O : Oracle X V) (ngf0 : ℝ) : ℕ → LSState X → LSOutcome X
  | 0, _ => .running
  | n + 1, s =>
    if s.rs.continues C.run then
      let d := O.dir s.past
      let init := O.init s.past
      match C.search (M.ray s.x d s.rs.f1) (O.interp s.past) s.rs.pre s.ngf ngf0 init with
      | none => .hang
      | some r =>
        let x2 := M.move s.x d r.pt
        let ngf2 := gradNormAt M O s r
        let past := (x2, r.step) :: s.past
        match pass C.run (C.env O past r init s.rs.f1 ngf0 ngf2) s.rs with
        | .outOfBounds => .outOfBounds
        | .divByZero => .divByZero
        | .stop rs => .finished { s with rs := rs }
        | .next rs => lsLoop M C O ngf0 n ⟨rs, x2, ngf2, past⟩
    else .finished s

/-- State before the loop, SolversSMLS.cpp:10-45. -/
noncomputable def lsInit (M : Land X V) (C : LSCfg) (O : Oracle X V) (x0 : X) : LSState X where
  rs := RunState.init C.run
    { finit := M.f x0, trial := fun _ _ _ => ⟨true, 0, true, 0⟩, nonmono := fun _ => false
      stopped := fun k => C.stop O [(x0, 0)] k (M.f x0) (M.f x0) (M.gnorm x0) (M.gnorm x0) } 0 0
  x := x0
  ngf := M.gnorm x0
  past := [(x0, 0)]

/-- `SolversSMLS::Run` from `x0`. -/
noncomputable def lsRun (M : Land X V) (C : LSCfg) (O : Oracle X V) (x0 : X) (fuel : ℕ) : LSOutcome X :=
  lsLoop M C O (M.gnorm x0) fuel (lsInit M C O x0)

end Verif.Solver
