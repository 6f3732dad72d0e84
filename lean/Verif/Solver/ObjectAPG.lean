import Verif.Solver.ObjectPG

/-!
# The accelerated proximal-gradient solver as an object

`AManPG` (`Solvers/AManPG.cpp`) with the members of `SolversNSMPGLS`. As in `Verif.Solver.ObjectPG` numbers are arbitrary, the clock and printing are not modelled, and
`Verbose >= ITERRESULT` (the default). A ghost member `log` lists the calls of the problem and of the manifold's retractions, newest first.

Members that are written and never read are left out: `z2`, `y2`, `fy1`, `fy2`, `fz1`, `gfz1`, `gfz2`, and `s2` after a pass (`AManPG.cpp:104-105, 190-192, 237-241`).
-/

namespace Verif.Obj

/-- `PGEnv` with `Mani->InvRetraction`. -/
structure APGEnv (K X E : Type*) extends PGEnv K X E where
  invRetr : X → X → E

/-- A call of the problem or of the manifold: a value of the function, a gradient, a retraction, an inverse of the retraction. -/
inductive PGAsk (X E : Type*)
  | f (x : X)
  | grad (x : X)
  | retr (x : X) (v : E)
  | inv (x y : X)

/-- Parameters; `gap` is `SGIterGap`. -/
structure APGCfg (K X : Type*) extends PGCfg K X where
  gap : Nat

/-- Members of the object: those of `SolversNSMPGLS`, the points of the acceleration, `fz2`, and the second dual vector `initDy`. -/
structure APGObj (K X E : Type*) where
  pg : PGObj K X E
  z1 : X
  y1 : X
  gfy1 : E
  s1 : K
  fz2 : K
  initDy : Option (List K)
  log : List (PGAsk X E)

/-- Outcome of a pass or of a run. -/
inductive APGOut (K X E : Type*)
  | ub
  | more
  | done (o : APGObj K X E)

inductive APGPass (K X E : Type*)
  | ub
  | more
  | leave (o : APGObj K X E)
  | next (stop : Bool) (o : APGObj K X E)

variable {K X E : Type*} [Add K] [Sub K] [Mul K] [Div K] [Neg K]

/-- `SolversNSMPGLS::h`, SolversNSMPGLS.cpp:85-91, as the trial with step `t`; the calls are appended to the list. -/
def apgTrial (env : APGEnv K X E) (x1 : X) (eta1 : E) (t : K) (k : Nat) (log : List (PGAsk X E)) : PGSearch K X E × List (PGAsk X E) :=
  let eta2 := env.smul t eta1
  let x2 := env.retr x1 eta2
  (⟨true, t, x2, env.f x2, eta2, k + 1⟩, .f x2 :: .retr x1 eta2 :: log)

/-- The loop of `LinesearchArmijo`, SolversNSMPGLS.cpp:67-80. -/
def apgBacktrack (env : APGEnv K X E) (cfg : PGCfg K X) (x1 : X) (f1 slope : K) (eta1 : E) :
    Nat → PGSearch K X E × List (PGAsk X E) → Option (PGSearch K X E × List (PGAsk X E))
  | 0, _ => none
  | n + 1, s =>
    if env.lt (f1 - s.1.f2) (-cfg.alpha * slope * s.1.step) then
      let t := s.1.step * cfg.ratio
      if env.lt t cfg.minstep then some ({ s.1 with ok := false, step := t }, s.2)
      else apgBacktrack env cfg x1 f1 slope eta1 n (apgTrial env x1 eta1 t s.1.trials s.2)
    else some s

/-- Lines 93-108 of `AManPG::Run` with `SolversNSM::Run` and `Solvers::Run`. -/
def apgPrologue (env : APGEnv K X E) (o : APGObj K X E) : APGObj K X E :=
  let p := pgPrologue env.toPGEnv o.pg
  { o with pg := p, y1 := p.x1, gfy1 := p.gf1, z1 := p.x1, s1 := env.lit 1 1, log := .grad p.x1 :: .f p.x1 :: o.log }

/-- The objects after the search and before the safeguard decides, lines 136-162 and 164-174. -/
def apgSearched (env : APGEnv K X E) (o : APGObj K X E) (eta1 : E) (d : List K) (i c : Nat) (s : PGSearch K X E × List (PGAsk X E)) : APGObj K X E :=
  let ndir1 := env.sqrt (env.metric o.pg.x2 eta1 eta1)
  let slope := env.metric o.pg.x1 o.pg.gf1 eta1
  let gf2 := env.grad s.1.x2
  { o with
    pg := { o.pg with
      eta1 := eta1, smIter := i, smCG := c, ndir1 := ndir1, ndir0 := if env.eq o.pg.ndir0 (env.lit 0 1) then ndir1 else o.pg.ndir0
      initialslope := slope, initiallength := env.lit 1 1, stepsize := s.1.step, x2 := s.1.x2, f2 := s.1.f2, eta2 := s.1.eta2, gf2 := gf2
      newslope := env.metric s.1.x2 gf2 (env.dretr o.pg.x1 s.1.eta2 s.1.x2 eta1), success := s.1.ok
      cnt := ⟨o.pg.cnt.nf + s.1.trials, o.pg.cnt.ng + 1, o.pg.cnt.nR + s.1.trials, o.pg.cnt.nV + 1, o.pg.cnt.sm + i, o.pg.cnt.cg + c⟩
      kept := { o.pg.kept with initD := some d } }
    log := .grad s.1.x2 :: s.2 }

/-- The refinement of the subproblem after a failed search, lines 158-160. -/
def apgRefine (env : APGEnv K X E) (o : APGObj K X E) : APGObj K X E :=
  { o with pg := { o.pg with
      success := true
      kept := { o.pg.kept with
        smTol := if env.lt (env.lit 1 (10 ^ 24)) (o.pg.kept.smTol * env.lit 1 100) then o.pg.kept.smTol * env.lit 1 100 else env.lit 1 (10 ^ 24)
        smLam := if env.lt (env.lit 1 (10 ^ 10)) (o.pg.kept.smLam * env.lit 1 10) then o.pg.kept.smLam * env.lit 1 10 else env.lit 1 (10 ^ 10) } } }

/-- Whether the safeguard takes effect, line 188. -/
def apgRestarts (env : APGEnv K X E) (o : APGObj K X E) : Bool := decide (o.pg.iter ≠ 0) && env.lt o.pg.f2 o.fz2

/-- The safeguard, lines 187-199. -/
def apgGuard (env : APGEnv K X E) (o : APGObj K X E) : APGObj K X E :=
  let o := if apgRestarts env o then { o with y1 := o.pg.x2, gfy1 := o.pg.gf2, z1 := o.pg.x2, s1 := env.lit 1 1 } else o
  { o with
    pg := { o.pg with x1 := o.z1, f1 := env.f o.z1, gf1 := env.grad o.z1, cnt := { o.pg.cnt with nf := o.pg.cnt.nf + 1, ng := o.pg.cnt.ng + 1 } }
    log := .grad o.z1 :: .f o.z1 :: o.log }

/-- The accelerated step and the end of a pass, lines 202-241. -/
def apgAccel (env : APGEnv K X E) (cfg : APGCfg K X) (o : APGObj K X E) : APGPass K X E :=
  match env.prox o.y1 o.gfy1 o.pg.kept.ada o.pg.kept.smTol o.pg.kept.smLam (pgDual env.toPGEnv { o.pg.kept with initD := o.initDy }) with
  | none => .ub
  | some (eta1, d, i, c) =>
    let z2 := env.retr o.y1 eta1
    let s2 := (env.lit 1 1 + env.sqrt (env.lit 1 1 + env.lit 4 1 * o.s1 * o.s1)) / env.lit 2 1
    let zeta := env.smul (-(o.s1 - env.lit 1 1) / s2) (env.invRetr z2 o.z1)
    let y2 := env.retr z2 zeta
    let p := { o.pg with eta1 := eta1, smIter := i, smCG := c, cnt := { o.pg.cnt with sm := o.pg.cnt.sm + i, cg := o.pg.cnt.cg + c } }
    let st := pgStopped env.toPGEnv cfg.toPGCfg p
    .next st { o with
      pg := { p with iter := p.iter + 1, series := (p.f2, p.ndir1, p.stepsize) :: p.series }
      fz2 := env.f z2, z1 := z2, y1 := y2, gfy1 := env.grad y2, s1 := s2, initDy := some d
      log := .grad y2 :: .f y2 :: .retr z2 zeta :: .inv z2 o.z1 :: .f z2 :: .retr o.y1 eta1 :: o.log }

/-- One pass, lines 133-242; `st` is the local variable `isstop`. `SGIterGap = 0` divides by zero (line 134). -/
def apgPass (env : APGEnv K X E) (cfg : APGCfg K X) (n : Nat) (st : Bool) (o : APGObj K X E) : APGPass K X E :=
  if cfg.gap = 0 then .ub
  else if o.pg.iter % cfg.gap = 0 then
    match env.prox o.pg.x1 o.pg.gf1 o.pg.kept.ada o.pg.kept.smTol o.pg.kept.smLam (pgDual env.toPGEnv o.pg.kept) with
    | none => .ub
    | some (eta1, d, i, c) =>
      match apgBacktrack env cfg.toPGCfg o.pg.x1 o.pg.f1 (env.metric o.pg.x1 o.pg.gf1 eta1) eta1 n (apgTrial env o.pg.x1 eta1 (env.lit 1 1) 0 o.log) with
      | none => .more
      | some s =>
        let o := apgSearched env o eta1 d i c s
        if !s.1.ok then
          if env.eq o.pg.kept.smLam (env.lit 1 (10 ^ 10)) && env.eq o.pg.kept.smTol (env.lit 1 (10 ^ 24)) then .leave o
          else .next st (apgRefine env o)
        else
          let o := { o with pg := { o.pg with kept := { o.pg.kept with ada := pgAda env.toPGEnv cfg.toPGCfg (env.eq o.pg.stepsize o.pg.initiallength) o.pg.kept.ada } } }
          if !env.finite o.pg.f2 then .leave o
          else apgAccel env cfg (apgGuard env o)
  else apgAccel env cfg o

/-- The loop, lines 132-242; the status is `LSPG_SUCCESS` at its head. -/
def apgLoop (env : APGEnv K X E) (cfg : APGCfg K X) : Nat → Bool → APGObj K X E → APGOut K X E
  | 0, _, _ => .more
  | n + 1, st, o =>
    if ((!st && decide (o.pg.iter < cfg.maxIter)) || decide (o.pg.iter < cfg.minIter)) then
      match apgPass env cfg (n + 1) st o with
      | .ub => .ub
      | .more => .more
      | .leave o => .done { o with pg := { o.pg with lengthSeries := o.pg.iter + 1 } }
      | .next st o => apgLoop env cfg n st o
    else .done { o with pg := { o.pg with lengthSeries := o.pg.iter + 1 } }

/-- `AManPG::Run`, AManPG.cpp:91-252. -/
def apgRun (env : APGEnv K X E) (cfg : APGCfg K X) (n : Nat) (o : APGObj K X E) : APGOut K X E :=
  let o := apgPrologue env o
  apgLoop env cfg n (pgStopped env.toPGEnv cfg.toPGCfg o.pg) o

end Verif.Obj
