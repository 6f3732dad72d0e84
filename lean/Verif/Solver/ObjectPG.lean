import Verif.Solver.Object

/-!
# A proximal-gradient solver object across several calls of `Run`

As `Verif.Solver.Object`, for `ManPG` (`Solvers/ManPG.cpp`, `Solvers/SolversNSMPGLS.cpp`, `Solvers/SolversNSM.cpp`). Numbers are arbitrary. The clock and printing are not modelled;
`Verbose >= ITERRESULT` (the default), so that the series are recorded.
-/

namespace Verif.Obj

/-- `Env` with the proximal subproblem. `dimNor` is `ExtrinsicDim - IntrinsicDim`; `prox x gf ada tol lam d` is the part of `Manifold::TangentSpaceProximalMap` after the test of `inoutinitD` (`Manifold.cpp:868-931`), started with the
dual vector `d`: the direction, the final dual vector and the two counters, or `none` when the computation leaves the arrays. -/
structure PGEnv (K X E : Type*) extends Env K X E where
  dimNor : Nat
  prox : X → E → K → K → K → List K → Option (E × List K × Nat × Nat)

/-- Parameters. `adaptive`: `Variant == LSPG_ADALIPSCHITZ` (the default of `ManPG`). -/
structure PGCfg (K X : Type*) where
  maxIter : Nat
  minIter : Nat
  tol : K
  alpha : K
  ratio : K
  minstep : K
  adaptive : Bool
  stop : StopKind K X

/-- The members that neither `Run` nor `SetProbX` initialises (`SolversNSMPGLS.h:80-92`): `adavalue`, `SMtol`, `SMlambda`, `initD` (`none`: no memory attached). -/
structure PGKept (K : Type*) where
  ada : K
  smTol : K
  smLam : K
  initD : Option (List K)

/-- Counters, with the totals of the subproblem (`totalSMiter`, `totalSMCGiter`). -/
structure PGCounts where
  nf : Nat
  ng : Nat
  nR : Nat
  nV : Nat
  sm : Nat
  cg : Nat

/-- Members of `Solvers`, `SolversNSM` and `SolversNSMPGLS`. `series` stands for `funSeries`, `dirSeries` and the accepted step sizes. -/
structure PGObj (K X E : Type*) where
  x1 : X
  x2 : X
  f1 : K
  f2 : K
  gf1 : E
  gf2 : E
  eta1 : E
  eta2 : E
  ndir0 : K
  ndir1 : K
  stepsize : K
  initiallength : K
  initialslope : K
  newslope : K
  smIter : Nat
  smCG : Nat
  success : Bool
  iter : Nat
  series : List (K × K × K)
  lengthSeries : Nat
  cnt : PGCounts
  kept : PGKept K

/-- Result of a run: undefined behaviour, too few passes allowed, or the members after the run. -/
inductive PGOut (K X E : Type*)
  | ub
  | more
  | done (o : PGObj K X E)

variable {K X E : Type*} [Add K] [Sub K] [Mul K] [Div K] [Neg K]

/-- What `SolversNSMPGLS::LinesearchArmijo` finds: status, step, the trial point, its value, `eta2`, number of trials. -/
structure PGSearch (K X E : Type*) where
  ok : Bool
  step : K
  x2 : X
  f2 : K
  eta2 : E
  trials : Nat

/-- `SolversNSMPGLS::h`, SolversNSMPGLS.cpp:85-91, as the trial with step `t`. -/
def pgTrial (env : PGEnv K X E) (x1 : X) (eta1 : E) (t : K) (k : Nat) : PGSearch K X E :=
  let eta2 := env.smul t eta1
  let x2 := env.retr x1 eta2
  ⟨true, t, x2, env.f x2, eta2, k + 1⟩

/-- The loop of `LinesearchArmijo`, SolversNSMPGLS.cpp:67-80. -/
def pgBacktrack (env : PGEnv K X E) (cfg : PGCfg K X) (x1 : X) (f1 slope : K) (eta1 : E) : Nat → PGSearch K X E → Option (PGSearch K X E)
  | 0, _ => none
  | n + 1, s =>
    if env.lt (f1 - s.f2) (-cfg.alpha * slope * s.step) then
      let t := s.step * cfg.ratio
      if env.lt t cfg.minstep then some { s with ok := false, step := t }
      else pgBacktrack env cfg x1 f1 slope eta1 n (pgTrial env x1 eta1 t s.trials)
    else some s

/-- `SolversNSM::IsStopped`, SolversNSM.cpp:91-110, without the clock. -/
def pgStopped (env : PGEnv K X E) (cfg : PGCfg K X) (o : PGObj K X E) : Bool :=
  match cfg.stop with
  | .user p => p o.x2 o.series o.lengthSeries o.ndir1 o.ndir0
  | .funRel => env.lt (env.abs ((o.f1 - o.f2) / (env.abs o.f1 + env.lit 1 1))) cfg.tol && decide (o.iter > 0)
  | .gradF => env.lt o.ndir1 cfg.tol
  | .gradF0 => env.lt (o.ndir1 / o.ndir0) cfg.tol

/-- Lines 23-54 of `ManPG::Run` with `SolversNSM::Run` and `Solvers::Run`. -/
def pgPrologue (env : PGEnv K X E) (o : PGObj K X E) : PGObj K X E :=
  let f1 := env.f o.x1
  { o with success := true, f1 := f1, f2 := f1, gf1 := env.grad o.x1, ndir0 := env.lit 0 1, ndir1 := env.lit 1 1, newslope := env.lit 0 1, iter := 0
           series := [(f1, env.lit 0 1, env.lit 0 1)], cnt := { o.cnt with nf := o.cnt.nf + 1, ng := o.cnt.ng + 1 } }

/-- The dual vector a subproblem starts with: zeros when no memory is attached to `initD` (`Manifold.cpp:863-867`), otherwise whatever `initD` holds. -/
def pgDual (env : PGEnv K X E) (kept : PGKept K) : List K :=
  match kept.initD with
  | none => List.replicate env.dimNor (env.lit 0 1)
  | some d => d

/-- `adavalue` after a successful search, ManPG.cpp:89-99. -/
def pgAda (env : PGEnv K X E) (cfg : PGCfg K X) (full : Bool) (a : K) : K :=
  if cfg.adaptive then
    if full then a / env.lit 101 100
    else if env.lt (a * env.lit 101 100) (env.lit 1 1) then a * env.lit 101 100 else env.lit 1 1
  else a

/-- Outcome of a pass. -/
inductive PGPass (K X E : Type*)
  | ub
  | more
  | leave (o : PGObj K X E)
  | next (stop : Bool) (o : PGObj K X E)

/-- One pass, ManPG.cpp:58-139; `st` is the local variable `isstop`. -/
def pgPass (env : PGEnv K X E) (cfg : PGCfg K X) (n : Nat) (st : Bool) (o : PGObj K X E) : PGPass K X E :=
  match env.prox o.x1 o.gf1 o.kept.ada o.kept.smTol o.kept.smLam (pgDual env o.kept) with
  | none => .ub
  | some (eta1, d, i, c) =>
    let ndir1 := env.sqrt (env.metric o.x2 eta1 eta1)
    let slope := env.metric o.x1 o.gf1 eta1
    match pgBacktrack env cfg o.x1 o.f1 slope eta1 n (pgTrial env o.x1 eta1 (env.lit 1 1) 0) with
    | none => .more
    | some s =>
      let gf2 := env.grad s.x2
      let o := { o with
        eta1 := eta1, smIter := i, smCG := c, ndir1 := ndir1, ndir0 := if env.eq o.ndir0 (env.lit 0 1) then ndir1 else o.ndir0
        initialslope := slope, initiallength := env.lit 1 1, stepsize := s.step, x2 := s.x2, f2 := s.f2, eta2 := s.eta2, gf2 := gf2
        newslope := env.metric s.x2 gf2 (env.dretr o.x1 s.eta2 s.x2 eta1), success := s.ok
        cnt := ⟨o.cnt.nf + s.trials, o.cnt.ng + 1, o.cnt.nR + s.trials, o.cnt.nV + 1, o.cnt.sm + i, o.cnt.cg + c⟩
        kept := { o.kept with initD := some d } }
      if !s.ok then
        if env.eq o.kept.smLam (env.lit 1 (10 ^ 10)) && env.eq o.kept.smTol (env.lit 1 (10 ^ 24)) then .leave o
        else
          .next st { o with
            success := true
            kept := { o.kept with
              smTol := if env.lt (env.lit 1 (10 ^ 24)) (o.kept.smTol * env.lit 1 100) then o.kept.smTol * env.lit 1 100 else env.lit 1 (10 ^ 24)
              smLam := if env.lt (env.lit 1 (10 ^ 10)) (o.kept.smLam * env.lit 1 10) then o.kept.smLam * env.lit 1 10 else env.lit 1 (10 ^ 10) } }
      else
        let o := { o with kept := { o.kept with ada := pgAda env cfg (env.eq o.stepsize o.initiallength) o.kept.ada } }
        if !env.finite o.f2 then .leave o
        else
          let o := { o with iter := o.iter + 1 }
          let st := pgStopped env cfg o
          .next st { o with
            series := (o.f2, o.ndir1, o.stepsize) :: o.series, x1 := o.x2, x2 := o.x1, gf1 := o.gf2, gf2 := o.gf1, f1 := o.f2 }

/-- The loop, ManPG.cpp:57-140; `success` is true at its head. -/
def pgLoop (env : PGEnv K X E) (cfg : PGCfg K X) : Nat → Bool → PGObj K X E → PGOut K X E
  | 0, _, _ => .more
  | n + 1, st, o =>
    if ((!st && decide (o.iter < cfg.maxIter)) || decide (o.iter < cfg.minIter)) then
      match pgPass env cfg (n + 1) st o with
      | .ub => .ub
      | .more => .more
      | .leave o => .done { o with lengthSeries := o.iter + 1 }
      | .next st o => pgLoop env cfg n st o
    else .done { o with lengthSeries := o.iter + 1 }

/-- `ManPG::Run`, ManPG.cpp:23-152. -/
def pgRun (env : PGEnv K X E) (cfg : PGCfg K X) (n : Nat) (o : PGObj K X E) : PGOut K X E :=
  let o := pgPrologue env o
  pgLoop env cfg n (pgStopped env cfg o) o

/-- `SolversNSMPGLS::SetProbX`, SolversNSMPGLS.cpp:11-19, with `SolversNSM::SetProbX` and `Solvers::SetProbX` (Solvers.cpp:66-74): the points and the vectors are replaced. -/
def pgSetProbX (empty : E) (x : X) (o : PGObj K X E) : PGObj K X E := { o with x1 := x, x2 := x, gf1 := empty, gf2 := empty, eta1 := empty, eta2 := empty }

/-- The constructor: `SetDefaultParams`, SolversNSMPGLS.cpp:21-40, then `SetProbX`; `junk` stands for the members that are not initialised. -/
def pgNew (env : PGEnv K X E) (empty : E) (x : X) (junk : PGObj K X E) : PGObj K X E :=
  pgSetProbX empty x { junk with
    cnt := ⟨0, 0, 0, 0, 0, 0⟩, lengthSeries := 0, kept := ⟨env.lit 1 1, env.lit 1 (10 ^ 10), env.lit 2 10, none⟩ }

end Verif.Obj
