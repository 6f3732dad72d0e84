import Verif.Solver.Object
import Verif.Solver.Subgrad

/-!
# Subgradient solvers as objects

`SolversNSMSubLS::Run` with everything it calls (`Solvers/SolversNSMSubLS.cpp`, `SolversNSMSub.cpp`, `SolversNSM.cpp`, `RGS.cpp`, `RBFGSSub.cpp`, `LRBFGSSub.cpp`), as a transformation of the members of a solver object. Arithmetic,
comparisons, the problem, the manifold, the minimum-norm subproblem and the quasi-Newton memory are arbitrary functions (`SubEnv`).
Simplifications: counters, printing and the clock are not kept; `Verbose` is at least `ITERRESULT` and `OutputGap` is not zero.
-/

namespace Verif.Obj

open Verif.Sub (LSStatus)

/-- `Env` with what the subgradient solvers use in addition. `W` is the quasi-Newton memory (`H` of `RBFGSSub`; `S`, `Y`, `RHO`, `Currentlength`, `beginidx`, `gamma` of `LRBFGSSub`; nothing for `RGS`). The natural number in `hull`, `rand` and
the member `rng` is the state of the random number generator. -/
structure SubEnv (K X E W : Type*) extends Env K X E where
  /-- `GetIntrDim()` -/
  intrDim : Nat
  /-- `MinPNormConHull` (`MinPNormConHull.cpp:13-41`), with the operator of the solver (`some`) or without: squared length, vector, random state; `none`: the operator's memory is read where nothing has been stored. -/
  hull : Nat → X → Option W → List E → Option (K × E × Nat)
  /-- `Hv` -/
  hv : W → X → E → Option E
  /-- `RandGaussian` and `Projection` (`RGS.cpp:35-36`) -/
  rand : Nat → X → E × Nat
  /-- `InverseVectorTransport` -/
  invTr : X → E → X → E → E
  /-- `Beta` -/
  beta : X → E → K
  /-- `UpdateData` with `iter`, `x1`, `eta2`, `x2`, `gf1`, `gf2` -/
  update : Nat → X → E → X → E → E → W → Option W
  /-- What `Run` does to the memory: `LRBFGSSub.cpp:9-15` -/
  renew : W → W

/-- Parameters that no function of the solver changes. `rgs`: the object is an `RGS`. -/
structure SubCfg (K X : Type*) where
  maxIter : Nat
  minIter : Nat
  tol : K
  minEps : K
  thetaEps : K
  thetaDel : K
  alpha : K
  beta : K
  minstep : K
  maxstep : K
  lambdaLower : K
  rgs : Bool
  stop : StopKind K X

/-- Members. `gfs` are the vectors stored in the array `gfs` so far, `lenG` its length (`Lengthgfs`); `series` (newest first) holds what is written to `funSeries`, the norm of the direction and the accepted step sizes; `dirs` the entries written
to `dirSeries`. `eps` and `del` are the parameters `Eps` and `Del`, which `Run` changes; `numExtra` is `NumExtraGF`. -/
structure SubObj (K X E W : Type*) where
  x1 : X
  x2 : X
  f1 : K
  f2 : K
  gf1 : E
  gf2 : E
  eta1 : E
  eta2 : E
  minPv : E
  ndir0 : K
  ndir1 : K
  stepsize : K
  initiallength : K
  initialslope : K
  newslope : K
  eps : K
  del : K
  numExtra : Nat
  lenG : Nat
  gfs : List E
  status : LSStatus
  iter : Nat
  series : List (K × K × K)
  dirs : List K
  lengthSeries : Nat
  rng : Nat
  mem : W

/-- Result of a run: undefined behaviour, too few passes allowed, or the members after the run. -/
inductive SubOut (K X E W : Type*)
  | ub
  | more
  | done (o : SubObj K X E W)

variable {K X E W : Type*} [Add K] [Sub K] [Mul K] [Div K] [Neg K]

/-- `SolversNSMSubLS::h`, SolversNSMSubLS.cpp:400-406; every caller assigns the result to `f2`. -/
def suH (env : SubEnv K X E W) (o : SubObj K X E W) : SubObj K X E W :=
  let eta2 := env.smul o.stepsize o.eta1
  let x2 := env.retr o.x1 eta2
  { o with eta2 := eta2, x2 := x2, f2 := env.f x2 }

/-- `SolversNSMSubLS::dh`, SolversNSMSubLS.cpp:408-415. -/
def suDh (env : SubEnv K X E W) (o : SubObj K X E W) : SubObj K X E W :=
  let gf2 := env.grad o.x2
  { o with gf2 := gf2, newslope := env.metric o.x2 gf2 (env.dretr o.x1 o.eta2 o.x2 o.eta1) }

/-- The test of lines 326 and 370: no sufficient decrease. -/
def suHigh (env : SubEnv K X E W) (cfg : SubCfg K X) (o : SubObj K X E W) : Bool := env.lt (env.lit 0 1) (o.f2 - o.f1 - cfg.alpha * o.initialslope * o.stepsize)

/-- `ZoomLP`, SolversNSMSubLS.cpp:352-398. -/
def suZoom (env : SubEnv K X E W) (cfg : SubCfg K X) : Nat → K → K → Nat → SubObj K X E W → Option (SubObj K X E W)
  | 0, _, _, _, _ => none
  | n + 1, a, b, times, o =>
    let o := { o with stepsize := (a + b) / env.lit 2 1 }
    if env.lt o.stepsize cfg.minstep then some (suDh env { o with status := .minStep })
    else
      let o := suH env o
      if suHigh env cfg o then suZoom env cfg n a o.stepsize (times + 1) o
      else
        let o := suDh env o
        if env.le (cfg.beta * o.initialslope) o.newslope then some o
        else if 30 ≤ times then some { o with status := .noCurvature }
        else suZoom env cfg n o.stepsize b (times + 1) o

/-- The loop of `LinesearchWolfeLipschitz`, SolversNSMSubLS.cpp:323-342; `pre` is `prestepsize`. -/
def suWolfe (env : SubEnv K X E W) (cfg : SubCfg K X) (zf : Nat) : Nat → K → SubObj K X E W → Option (SubObj K X E W)
  | 0, _, _ => none
  | n + 1, pre, o =>
    let o := suH env o
    if suHigh env cfg o then suZoom env cfg zf pre o.stepsize 0 o
    else
      let o := suDh env o
      if env.le (cfg.beta * o.initialslope) o.newslope then some o
      else
        let t := if env.lt (env.lit 2 1 * o.stepsize) cfg.maxstep then env.lit 2 1 * o.stepsize else cfg.maxstep
        if env.eq t cfg.maxstep then some { o with stepsize := t }
        else suWolfe env cfg zf n o.stepsize { o with stepsize := t }

/-- The status tests, SolversNSMSubLS.cpp:343-350. -/
def suStatus (env : SubEnv K X E W) (cfg : SubCfg K X) (o : SubObj K X E W) : SubObj K X E W :=
  let o := if env.le o.stepsize cfg.minstep then { o with status := .minStep } else o
  if env.le cfg.maxstep o.stepsize then { o with status := .maxStep } else o

/-- `LinesearchWolfeLipschitz`, SolversNSMSubLS.cpp:319-350. -/
def suSearch (env : SubEnv K X E W) (cfg : SubCfg K X) (n : Nat) (o : SubObj K X E W) : Option (SubObj K X E W) :=
  (suWolfe env cfg n n (env.lit 0 1) { o with status := .success }).map (suStatus env cfg)

/-- The loop of `Increasing`, SolversNSMSubLS.cpp:281-311; the first argument is the number of passes left. -/
def suIncreasing (env : SubEnv K X E W) (cfg : SubCfg K X) (neta1 P hb : K) : Nat → K → K → SubObj K X E W → SubObj K X E W
  | 0, _, _, o => o
  | n + 1, a, b, o =>
    let o := suDh env o
    if env.lt (o.newslope + cfg.alpha * P) (env.lit 0 1) then
      let o := suH env { o with stepsize := (a + b) / env.lit 2 1 }
      let ht := o.f2 - o.f1 + cfg.alpha * o.eps / neta1 * P
      if env.lt ht hb then suIncreasing env cfg neta1 P hb n o.stepsize b o
      else suIncreasing env cfg neta1 P hb n a o.stepsize o
    else o

/-- Lines 246-251 of `GetSearchDir`: `nminPv`, with the second subproblem when the first length is small. -/
def suShortest (env : SubEnv K X E W) (cfg : SubCfg K X) (P : K) (o : SubObj K X E W) : Option (K × SubObj K X E W) :=
  if env.lt (o.del * cfg.lambdaLower) (env.sqrt P) then some (env.sqrt (env.metric o.x1 o.minPv o.minPv), o)
  else (env.hull o.rng o.x1 none o.gfs).map fun r => (env.sqrt r.1, { o with minPv := r.2.1, rng := r.2.2 })

/-- The loop of `GetSearchDir`, SolversNSMSubLS.cpp:235-278. `none`: memory of the operator that has not been stored, or a write outside the array `gfs`. -/
def suSample (env : SubEnv K X E W) (cfg : SubCfg K X) : Nat → SubObj K X E W → Option (SubObj K X E W)
  | 0, o => some o
  | n + 1, o =>
    match env.hull o.rng o.x1 (some o.mem) o.gfs with
    | none => none
    | some (P, v, r) =>
      match env.hv o.mem o.x1 v with
      | none => none
      | some e =>
        match suShortest env cfg P { o with minPv := v, rng := r, eta1 := env.smul (-env.lit 1 1) e } with
        | none => none
        | some (nmin, o) =>
          if env.le nmin o.del then some o
          else
            let nd := env.sqrt (env.metric o.x1 o.eta1 o.eta1)
            let o := suH env { o with ndir1 := nd, stepsize := o.eps / nd }
            let hb := o.f2 - o.f1 + cfg.alpha * o.stepsize * P
            if env.le hb (env.lit 0 1) then some o
            else
              let o := suIncreasing env cfg nd P hb 10 (env.lit 0 1) o.stepsize o
              if o.gfs.length < o.lenG then suSample env cfg n { o with gfs := o.gfs ++ [env.smul (env.lit 1 1 / env.beta o.x1 o.eta2) (env.invTr o.x1 o.eta2 o.x2 o.gf2)] }
              else none

/-- The random tangent vectors of `RGS::GetSearchDir`, RGS.cpp:32-48, scaled to the length `Eps`. -/
def suRand (env : SubEnv K X E W) (x : X) (eps : K) : Nat → Nat → List E × Nat
  | 0, r => ([], r)
  | k + 1, r =>
    let u := env.rand r x
    let l := suRand env x eps k u.2
    (env.smul (eps / env.sqrt (env.metric x u.1 u.1)) u.1 :: l.1, l.2)

/-- `RGS::GetSearchDir`, RGS.cpp:29-67. -/
def suRgs (env : SubEnv K X E W) (o : SubObj K X E W) : Option (SubObj K X E W) :=
  let l := suRand env o.x1 o.eps (o.lenG - 1) o.rng
  let gfs := o.gf1 :: l.1.map fun u => env.invTr o.x1 u (env.retr o.x1 u) (env.grad (env.retr o.x1 u))
  (env.hull l.2 o.x1 none gfs).map fun r =>
    { o with gfs := gfs, rng := r.2.2, ndir1 := env.sqrt r.1, minPv := r.2.1, eta1 := env.smul (-env.lit 1 1 / env.sqrt r.1) r.2.1 }

/-- `GetSearchDir`; both start with `gfs[0] = gf1`, which needs an array of at least one element. -/
def suDirection (env : SubEnv K X E W) (cfg : SubCfg K X) (o : SubObj K X E W) : Option (SubObj K X E W) :=
  if 0 < o.lenG then
    if cfg.rgs then suRgs env o else suSample env cfg (o.lenG - 1) { o with gfs := [o.gf1] }
  else none

/-- `SolversNSM::IsStopped`, SolversNSM.cpp:91-110, without the clock. -/
def suStopped (env : SubEnv K X E W) (cfg : SubCfg K X) (o : SubObj K X E W) : Bool :=
  match cfg.stop with
  | .user p => p o.x2 o.series o.lengthSeries o.ndir1 o.ndir0
  | .funRel => env.lt (env.abs ((o.f1 - o.f2) / (env.abs o.f1 + env.lit 1 1))) cfg.tol && decide (o.iter > 0)
  | .gradF => env.lt o.ndir1 cfg.tol
  | .gradF0 => env.lt (o.ndir1 / o.ndir0) cfg.tol

/-- The loop of lines 58-61. -/
def suShrinkDel (env : SubEnv K X E W) (cfg : SubCfg K X) (v : K) : Nat → K → Option K
  | 0, _ => none
  | n + 1, d => if env.lt v d then suShrinkDel env cfg v n (d * cfg.thetaDel) else some d

/-- Lines 50-62: `Eps` and `Del` are reduced. -/
def suShrink (env : SubEnv K X E W) (cfg : SubCfg K X) (n : Nat) (o : SubObj K X E W) : Option (SubObj K X E W) :=
  let e := o.eps * cfg.thetaEps
  let e := if env.lt cfg.minEps e then e else cfg.minEps
  if env.lt cfg.minEps e then some { o with eps := e, del := o.del * cfg.thetaDel }
  else (suShrinkDel env cfg (env.abs o.ndir1) n o.del).map fun d => { o with eps := e, del := d }

/-- Outcome of a pass. -/
inductive SubPass (K X E W : Type*)
  | ub
  | more
  | next (stop : Bool) (o : SubObj K X E W)

/-- Lines 80-106: `UpdateData`, the entries of the series (the norm of the direction goes to the place before that of the value), the exchange of `x1` and `x2`. -/
def suAdvance (env : SubEnv K X E W) (o : SubObj K X E W) : Option (SubObj K X E W) :=
  (env.update (o.iter + 1) o.x1 o.eta2 o.x2 o.gf1 o.gf2 o.mem).map fun m =>
    { o with
      iter := o.iter + 1, mem := m, series := (o.f2, o.ndir1, o.stepsize) :: o.series, dirs := o.dirs.take o.iter ++ [o.ndir1]
      x1 := o.x2, x2 := o.x1, gf1 := o.gf2, gf2 := o.gf1, f1 := o.f2, f2 := o.f1 }

/-- One pass, SolversNSMSubLS.cpp:41-107. -/
def suPass (env : SubEnv K X E W) (cfg : SubCfg K X) (n : Nat) (o : SubObj K X E W) : SubPass K X E W :=
  match suDirection env cfg o with
  | none => .ub
  | some o =>
    let st := suStopped env cfg o
    if env.le (env.abs o.ndir1) o.del || env.le (env.abs o.ndir1) cfg.tol then
      match suShrink env cfg n o with
      | none => .more
      | some o => .next st o
    else
      match suSearch env cfg n { o with initialslope := env.metric o.x1 o.minPv o.eta1, stepsize := env.lit 1 1, initiallength := env.lit 1 1 } with
      | none => .more
      | some o =>
        match suAdvance env o with
        | none => .ub
        | some o => .next st o

/-- The condition of the loop, line 40. -/
def suGoes (env : SubEnv K X E W) (cfg : SubCfg K X) (st : Bool) (o : SubObj K X E W) : Bool :=
  decide (o.iter < cfg.maxIter) && (!st || decide (o.iter < cfg.minIter) || env.lt cfg.minEps o.eps) && (decide (o.status = .success) || decide (o.status = .maxStep))

/-- The loop, SolversNSMSubLS.cpp:40-112. -/
def suLoop (env : SubEnv K X E W) (cfg : SubCfg K X) : Nat → Bool → SubObj K X E W → SubOut K X E W
  | 0, _, _ => .more
  | n + 1, st, o =>
    if suGoes env cfg st o then
      match suPass env cfg (n + 1) o with
      | .ub => .ub
      | .more => .more
      | .next st o => suLoop env cfg n st o
    else .done { o with lengthSeries := o.iter + 1 }

/-- Lines 8-38 of `Run` with `SolversNSMSub::Run` (SolversNSMSub.cpp:6-18), `SolversNSM::Run`, `Solvers::Run` and, for `LRBFGSSub`, LRBFGSSub.cpp:9-15. `Eps` and `Del` are not touched. -/
def suPrologue (env : SubEnv K X E W) (o : SubObj K X E W) : SubObj K X E W :=
  let f1 := env.f o.x1
  let gf1 := env.grad o.x1
  { o with
    mem := env.renew o.mem, lenG := env.intrDim + o.numExtra, gfs := [], status := .success, f1 := f1, f2 := f1 + env.lit 1 1, gf1 := gf1
    ndir0 := env.sqrt (env.metric o.x1 gf1 gf1), newslope := env.lit 0 1, iter := 0, series := [(f1, env.lit 0 1, env.lit 0 1)], dirs := [env.lit 0 1] }

/-- `SolversNSMSubLS::Run`, SolversNSMSubLS.cpp:6-113. -/
def suRun (env : SubEnv K X E W) (cfg : SubCfg K X) (n : Nat) (o : SubObj K X E W) : SubOut K X E W := suLoop env cfg n false (suPrologue env o)

/-- `SetProbX`: SolversNSMSubLS.cpp:151-159, SolversNSMSub.cpp:93-99, SolversNSM.cpp:33-37, Solvers.cpp:66-74. `mem` is what the class does with its memory (`RBFGSSub.cpp:17-42`: a new operator; `LRBFGSSub.cpp:29-36`: nothing). -/
def suSetProbX (env : SubEnv K X E W) (empty : E) (mem : W → W) (x : X) (o : SubObj K X E W) : SubObj K X E W :=
  { o with x1 := x, x2 := x, gf1 := empty, gf2 := empty, minPv := empty, eta1 := empty, eta2 := empty, numExtra := env.intrDim, mem := mem o.mem }

/-- The constructor: `SetProbX` and `SetDefaultParams` (SolversNSMSubLS.cpp:161-184), in either order; `junk` stands for the members that are not initialised, among them `ndir1`. -/
def suNew (env : SubEnv K X E W) (empty : E) (mem : W) (x : X) (junk : SubObj K X E W) : SubObj K X E W :=
  suSetProbX env empty (fun _ => mem) x { junk with eps := env.lit 1 1, del := env.lit 1 1, lengthSeries := 0 }

end Verif.Obj
