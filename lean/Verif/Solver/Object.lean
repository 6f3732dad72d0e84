import Mathlib.Tactic.TypeStar

/-!
# A line-search solver object across several calls of `Run`

The other models of this directory describe one run of a solver that was just constructed. Here the object itself is the
state: every member that `SolversSMLS::Run` or one of its hooks reads or writes is a field, and `run` maps the members
before a call of `Run` to the members after it. Nothing is assumed about numbers: `K` is any type with any operations, so
`K` may be the machine type `realdp` with its rounding, infinities and NaN. Loops that need not end carry a bound on the
number of passes; `none` means that the bound was too small, and theorems quantify over all bounds.

Not modelled: the clock (`TimeBound`, `ComTime`, `timeSeries`), printing, and the operation counters other than
`nf`, `ng`, `nR`, `nV`, `nVp`.
-/

namespace Verif.Obj

/-- Numbers, problem and manifold as the solver sees them. Nothing is required of any field, in particular `lt` and `le`
need not be related and arithmetic need not obey any law. `lit` turns literals of the source into numbers. -/
structure Env (K X E : Type*) where
  lit : Int → Nat → K
  lt : K → K → Bool
  le : K → K → Bool
  eq : K → K → Bool
  sqrt : K → K
  abs : K → K
  /-- `!(std::isnan(f2) || std::isinf(f2))` -/
  finite : K → Bool
  /-- `INFINITY` -/
  inf : K
  /-- `std::numeric_limits<realdp>::epsilon()` -/
  eps : K
  /-- `Prob->f` -/
  f : X → K
  /-- `Prob->Grad` -/
  grad : X → E
  /-- `Prob->PreConditioner` -/
  precond : X → E → E
  /-- `Mani->Metric` -/
  metric : X → E → E → K
  /-- `Mani->Retraction` -/
  retr : X → E → X
  /-- `Mani->DiffRetraction` -/
  dretr : X → E → X → E → E
  /-- `Mani->VectorTransport` -/
  transport : X → E → X → E → E
  /-- `Mani->ScalarTimesVector` -/
  smul : K → E → E
  /-- `Mani->VectorLinearCombination` -/
  lin : K → E → K → E → E

/-- `LSstatusSetSM` (SolversSMLS.h), the values the modelled searches produce; `other` numbers the rest. -/
inductive Status
  | success | minStep | other (code : Nat)
deriving DecidableEq

/-- Operation counters (Solvers.h: `nf`, `ng`, `nR`, `nV`, `nVp`). -/
structure Counts where
  nf : Nat
  ng : Nat
  nR : Nat
  nV : Nat
  nVp : Nat

/-- Members of `Solvers`, `SolversSM` and `SolversSMLS` that a run reads or writes (Solvers.h, SolversSM.h,
SolversSMLS.h); `own` holds the members of the derived class. `series` stands for `funSeries`, `gradSeries` and the array
of accepted step sizes. -/
structure Obj (K X E M : Type*) where
  x1 : X
  x2 : X
  f1 : K
  f2 : K
  gf1 : E
  gf2 : E
  eta1 : E
  eta2 : E
  ngf0 : K
  ngf1 : K
  ngf2 : K
  stepsize : K
  initiallength : K
  initialslope : K
  initialslopepre : K
  newslope : K
  iter : Nat
  preFuns : List K
  preBBs : List K
  status : Status
  series : List (K × K × K)
  lengthSeries : Nat
  cnt : Counts
  own : M

/-- What a line search may read (members `x1`, `f1`, `gf1`, `eta1`, `ngf1`, `initialslope`, `stepsize`, `initiallength`,
`pre_funs`, `iter`). -/
structure SearchIn (K X E : Type*) where
  x1 : X
  f1 : K
  gf1 : E
  eta1 : E
  ngf1 : K
  initialslope : K
  stepsize : K
  initiallength : K
  preFuns : List K
  iter : Nat

/-- What a line search leaves behind; the counters are increments. -/
structure SearchOut (K X E : Type*) where
  x2 : X
  f2 : K
  gf2 : E
  eta2 : E
  stepsize : K
  initiallength : K
  newslope : K
  status : Status
  cnt : Counts

/-- `InitStepsizeSetSM` (SolversSMLS.h). `LSSM_EXTRBBSTEP` is not modelled. -/
inductive InitType
  | quadIntMod | bb | one | quadInt
deriving DecidableEq

/-- `LSAlgoSM`: the Armijo search is modelled in full; any other search, and a search supplied by the user, is an
arbitrary function of what it may read. -/
inductive SearchKind (K X E : Type*)
  | armijo
  | other (search : Nat → SearchIn K X E → Option (SearchOut K X E))

/-- `StopCritSM` (SolversSM.h), or the function given by the user (`StopPtr`). -/
inductive StopKind (K X : Type*)
  | funRel | gradF | gradF0
  | user (p : X → List (K × K × K) → Nat → K → K → Bool)

/-- Parameters (`SetParams`), none of which `Run` changes. -/
structure Cfg (K X E : Type*) where
  initstep : K
  maxIter : Nat
  minIter : Nat
  tol : K
  accuracy : K
  finalstep : K
  alpha : K
  ratio1 : K
  ratio2 : K
  minstep : K
  numPreFuns : Nat
  preFunsAcc : K
  numPreBB : Nat
  bbRatio : K
  initType : InitType
  search : SearchKind K X E
  stop : StopKind K X

/-- The hooks of a derived class: `GetSearchDir` returns the new `eta1` and the members of the class, `UpdateData`
returns the new `eta1` (conjugate gradient computes the next direction there), the members of the class and the number of
transports. -/
structure Hooks (K X E M : Type*) where
  getSearchDir : Obj K X E M → E × M
  updateData : Obj K X E M → E × M × Nat × Nat

variable {K X E M : Type*} [Add K] [Sub K] [Mul K] [Div K] [Neg K]

/-- `SolversSMLS::h`, SolversSMLS.cpp:463-469; every modelled caller stores the value in `f2`. -/
def h (env : Env K X E) (o : Obj K X E M) : Obj K X E M :=
  let eta2 := env.smul o.stepsize o.eta1
  let x2 := env.retr o.x1 eta2
  { o with eta2 := eta2, x2 := x2, f2 := env.f x2, cnt := { o.cnt with nR := o.cnt.nR + 1, nf := o.cnt.nf + 1 } }

/-- `Prob->Grad(x2, &gf2); ng++`. -/
def gradX2 (env : Env K X E) (o : Obj K X E M) : Obj K X E M :=
  { o with gf2 := env.grad o.x2, cnt := { o.cnt with ng := o.cnt.ng + 1 } }

/-- `newslope = dh()`, SolversSMLS.cpp:471-479. -/
def dh (env : Env K X E) (o : Obj K X E M) : Obj K X E M :=
  let gf2 := env.grad o.x2
  { o with gf2 := gf2, newslope := env.metric o.x2 gf2 (env.dretr o.x1 o.eta2 o.x2 o.eta1)
           cnt := { o.cnt with ng := o.cnt.ng + 1, nV := o.cnt.nV + 1 } }

/-- `maxpref`, SolversSMLS.cpp:311-324: the loop stops before the last element of `pre_funs`. -/
def maxpref (env : Env K X E) (cfg : Cfg K X E) (o : Obj K X E M) : K :=
  ((o.preFuns.dropLast).take cfg.numPreFuns).foldl (fun a j => if env.lt a j then j else a) o.f1

/-- The test of SolversSMLS.cpp:329, 351 and 363. -/
def armijoFails (env : Env K X E) (cfg : Cfg K X E) (mp : K) (o : Obj K X E M) : Bool :=
  env.lt (mp - o.f2) (-cfg.alpha * o.initialslope * o.stepsize)

/-- The backtracking loop, SolversSMLS.cpp:329-343. -/
def backtrack (env : Env K X E) (cfg : Cfg K X E) (mp : K) : Nat → Obj K X E M → Option (Obj K X E M)
  | 0, _ => none
  | n + 1, o =>
    if armijoFails env cfg mp o then
      let o := { o with stepsize := o.stepsize * cfg.ratio1 }
      if env.lt o.stepsize cfg.minstep then some { o with status := .minStep }
      else backtrack env cfg mp n (h env o)
    else some o

/-- Lines 353-354 and 375-376: the trial step is kept between `LS_ratio1` and `LS_ratio2` times the previous one. -/
def clampStep (env : Env K X E) (cfg : Cfg K X E) (t pre : K) : K :=
  let t := if env.lt t (cfg.ratio2 * pre) then t else cfg.ratio2 * pre
  if env.lt (cfg.ratio1 * pre) t then t else cfg.ratio1 * pre

/-- The minimizer of the cubic through two trial points, SolversSMLS.cpp:365-374. -/
def cubicStep (env : Env K X E) (pre pre2 f2pre f2 f1 slope : K) : K :=
  let a11 := env.lit 1 1 / pre / pre
  let a12 := env.lit (-1) 1 / pre2 / pre2
  let a21 := -pre2 / pre / pre
  let a22 := pre / pre2 / pre2
  let b1 := f2 - f1 - slope * pre
  let b2 := f2pre - f1 - slope * pre2
  let c := pre - pre2
  let a := (a11 * b1 + a12 * b2) / c
  let b := (a21 * b1 + a22 * b2) / c
  (-b + env.sqrt (b * b - env.lit 3 1 * a * slope)) / env.lit 3 1 / a

/-- The loop with polynomial interpolation, SolversSMLS.cpp:363-388; `pre`, `pre2` and `f2pre` are its local variables. -/
def interpLoop (env : Env K X E) (cfg : Cfg K X E) (mp : K) : Nat → K → K → K → Obj K X E M → Option (Obj K X E M)
  | 0, _, _, _, _ => none
  | n + 1, pre, pre2, f2pre, o =>
    if armijoFails env cfg mp o then
      let o := { o with stepsize := clampStep env cfg (cubicStep env pre pre2 f2pre o.f2 o.f1 o.initialslope) pre }
      if env.lt o.stepsize cfg.minstep then some { o with status := .minStep }
      else
        let f2pre := o.f2
        let o := h env o
        interpLoop env cfg mp n o.stepsize pre f2pre o
    else some o

/-- `SolversSMLS::LinesearchArmijo`, SolversSMLS.cpp:307-391. -/
def armijo (env : Env K X E) (cfg : Cfg K X E) (n : Nat) (o : Obj K X E M) : Option (Obj K X E M) :=
  let o := h env { o with status := .success }
  let mp := maxpref env cfg o
  if env.le cfg.ratio2 cfg.ratio1 then (backtrack env cfg mp n o).map (dh env)
  else
    let pre := o.stepsize
    let r :=
      if armijoFails env cfg mp o then
        let t := -o.initialslope * pre * pre / env.lit 2 1 / (o.f2 - o.f1 - o.initialslope * pre)
        let f2pre := o.f2
        let o := h env { o with stepsize := clampStep env cfg t pre }
        interpLoop env cfg mp n o.stepsize pre f2pre o
      else interpLoop env cfg mp n pre (env.lit 0 1) (env.lit 0 1) o
    r.map fun o => { gradX2 env o with newslope := env.inf }

/-- Lines 59-93 of `SolversSMLS::Run`: the fixed step close to a solution, or a line search. -/
def search (env : Env K X E) (cfg : Cfg K X E) (n : Nat) (o : Obj K X E M) : Option (Obj K X E M) :=
  if env.lt (o.ngf1 / (o.ngf0 + cfg.tol)) cfg.accuracy then
    some (gradX2 env (h env { o with stepsize := if env.lt (env.lit 0 1) cfg.finalstep then cfg.finalstep else o.initiallength }))
  else match cfg.search with
    | .armijo => armijo env cfg n o
    | .other s =>
      (s n ⟨o.x1, o.f1, o.gf1, o.eta1, o.ngf1, o.initialslope, o.stepsize, o.initiallength, o.preFuns, o.iter⟩).map fun r =>
        { o with x2 := r.x2, f2 := r.f2, gf2 := r.gf2, eta2 := r.eta2, stepsize := r.stepsize, initiallength := r.initiallength
                 newslope := r.newslope, status := r.status
                 cnt := ⟨o.cnt.nf + r.cnt.nf, o.cnt.ng + r.cnt.ng, o.cnt.nR + r.cnt.nR, o.cnt.nV + r.cnt.nV, o.cnt.nVp + r.cnt.nVp⟩ }

/-- `BB1` and `BB2` of `LSSM_BBSTEP`, SolversSMLS.cpp:217-221. The members `x1` and `x2`, and `gf1` and `gf2`, have been
exchanged since the last search, so `x2` and `gf2` belong to the previous iterate. -/
def bbPair (env : Env K X E) (o : Obj K X E M) : K × K :=
  let s := env.transport o.x2 o.eta2 o.x1 o.eta2
  let y := env.lin (env.lit 1 1) o.gf1 (env.lit (-1) 1) (env.transport o.x2 o.eta2 o.x1 o.gf2)
  (env.metric o.x2 s s / env.metric o.x2 s y, env.metric o.x2 s y / env.metric o.x2 y y)

/-- `pre_BBs` after SolversSMLS.cpp:222-224. -/
def bbPush (env : Env K X E) (cfg : Cfg K X E) (bb2 ngf1 : K) (l : List K) : List K :=
  let l := (if env.lt bb2 env.eps then cfg.initstep / ngf1 else bb2) :: l
  if l.length > cfg.numPreBB then l.dropLast else l

/-- The step chosen from `BB1`, `BB2` and the list, SolversSMLS.cpp:226-246. -/
def bbChoose (env : Env K X E) (cfg : Cfg K X E) (bb1 bb2 : K) (l : List K) : K :=
  if env.eq cfg.bbRatio (env.lit 0 1) then bb1
  else if env.eq cfg.bbRatio (env.lit 1 1) && cfg.numPreBB = 0 then bb2
  else
    let m := (l.take cfg.numPreBB).foldl (fun a j => if env.lt j a then j else a) bb2
    if env.lt (m / bb1) cfg.bbRatio then m else bb1

/-- `f1 - pre_funs.front()`. -/
def decrease (env : Env K X E) (o : Obj K X E M) : K :=
  match o.preFuns with
  | [] => env.lit 0 1
  | a :: _ => o.f1 - a

/-- `quadintstepsize`, SolversSMLS.cpp:207. -/
def quadStep (env : Env K X E) (o : Obj K X E M) : K := env.lit 2 1 * decrease env o / o.initialslopepre

/-- The `switch` over the rules, SolversSMLS.cpp:208-300: candidate and new `pre_BBs`. -/
def candidate (env : Env K X E) (cfg : Cfg K X E) (o : Obj K X E M) : K × List K :=
  match cfg.initType with
  | .quadIntMod =>
    let t := env.lit 202 100 * decrease env o / o.initialslopepre
    (if env.lt (env.lit 1 1) t then env.lit 1 1 else t, o.preBBs)
  | .one => (env.lit 1 1, o.preBBs)
  | .quadInt => (quadStep env o, o.preBBs)
  | .bb =>
    let l := bbPush env cfg (bbPair env o).2 o.ngf1 o.preBBs
    (bbChoose env cfg (bbPair env o).1 (bbPair env o).2 l, l)

/-- The safeguard, SolversSMLS.cpp:301-303. -/
def safeguard (env : Env K X E) (cfg : Cfg K X E) (quad ngf1 t : K) : K :=
  let t := if env.lt t (quad / env.lit 100 1) then quad else t
  if env.lt t env.eps then cfg.initstep / ngf1 else t

/-- `SolversSMLS::InitialStepSize`, SolversSMLS.cpp:199-305. -/
def initialStepSize (env : Env K X E) (cfg : Cfg K X E) (o : Obj K X E M) : Obj K X E M :=
  if o.iter = 0 then { o with stepsize := cfg.initstep }
  else
    { o with stepsize := safeguard env cfg (quadStep env o) o.ngf1 (candidate env cfg o).1
             preBBs := (candidate env cfg o).2 }

/-- `SolversSM::IsStopped`, SolversSM.cpp:53-73, without the clock. The user's function gets `x2`, the recorded values,
`lengthSeries`, `ngf2` and `ngf0`. -/
def isStopped (env : Env K X E) (cfg : Cfg K X E) (o : Obj K X E M) : Bool :=
  match cfg.stop with
  | .user p => p o.x2 o.series o.lengthSeries o.ngf2 o.ngf0
  | .funRel => env.lt (env.abs ((o.f1 - o.f2) / (env.abs o.f1 + env.lit 1 1))) cfg.tol && decide (o.iter > 0)
  | .gradF => env.lt o.ngf2 cfg.tol
  | .gradF0 => env.lt (o.ngf2 / o.ngf0) cfg.tol

/-- Lines 9-43 of `SolversSMLS::Run` with `SolversSM::Run` and `Solvers::Run`: everything before the loop. -/
def prologue (env : Env K X E) (o : Obj K X E M) : Obj K X E M :=
  let f1 := env.f o.x1
  let gf1 := env.grad o.x1
  let ngf0 := env.sqrt (env.metric o.x1 gf1 gf1)
  { o with preFuns := [], status := .success, f1 := f1, f2 := f1, gf1 := gf1, ngf0 := ngf0, ngf1 := ngf0, ngf2 := ngf0
           newslope := env.lit 0 1, initialslopepre := env.lit 0 1, iter := 0
           series := [(f1, ngf0, env.lit 0 1)]
           cnt := { o.cnt with nf := o.cnt.nf + 1, ng := o.cnt.ng + 1 } }

/-- Lines 49-53: direction, slope and initial step. -/
def prepare (env : Env K X E) (cfg : Cfg K X E) (hk : Hooks K X E M) (o : Obj K X E M) : Obj K X E M :=
  let (eta1, own) := hk.getSearchDir o
  let o := { o with eta1 := eta1, own := own }
  let o := initialStepSize env cfg { o with initialslope := env.metric o.x1 o.gf1 o.eta1 }
  { o with initiallength := o.stepsize }

/-- Lines 106-110: `iter++`, `UpdateData` and the new gradient norm. -/
def afterSearch (env : Env K X E) (hk : Hooks K X E M) (o : Obj K X E M) : Obj K X E M :=
  let o := { o with iter := o.iter + 1 }
  let (eta1, own, dv, dvp) := hk.updateData o
  let o := { o with eta1 := eta1, own := own, cnt := { o.cnt with nV := o.cnt.nV + dv, nVp := o.cnt.nVp + dvp } }
  { o with ngf2 := env.sqrt (env.metric o.x2 o.gf2 o.gf2) }

/-- Lines 118-143: recording, exchange of the two iterates, and the list of previous function values; `nonmon` is the local
variable `nonmonoticLS`. Returns its new value too. -/
def advance (env : Env K X E) (cfg : Cfg K X E) (nonmon : Bool) (o : Obj K X E M) : Bool × Obj K X E M :=
  let o := { o with series := o.series ++ [(o.f2, o.ngf2, o.stepsize)] }
  let o := { o with x1 := o.x2, x2 := o.x1, gf1 := o.gf2, gf2 := o.gf1 }
  let nonmon := nonmon || env.le (o.ngf2 / (o.ngf0 + cfg.tol)) cfg.preFunsAcc
  let l := o.f1 :: o.preFuns
  let l := if (decide (l.length > cfg.numPreFuns) || !nonmon) && decide (l.length > 1) then l.dropLast else l
  (nonmon, { o with preFuns := l, f1 := o.f2, ngf1 := o.ngf2, initialslopepre := o.initialslope })

/-- The loop of `SolversSMLS::Run`, SolversSMLS.cpp:47-144; `m` bounds the passes of each search. -/
def loop (env : Env K X E) (cfg : Cfg K X E) (hk : Hooks K X E M) (m : Nat) :
    Nat → Bool → Bool → Obj K X E M → Option (Obj K X E M)
  | 0, _, _, _ => none
  | n + 1, nonmon, isstop, o =>
    if ((!isstop && decide (o.iter < cfg.maxIter)) || decide (o.iter < cfg.minIter)) && decide (o.status = .success) then
      match search env cfg m (prepare env cfg hk o) with
      | none => none
      | some o =>
        if env.finite o.f2 then
          let o := afterSearch env hk o
          let isstop := isStopped env cfg o
          let (nonmon, o) := advance env cfg nonmon o
          loop env cfg hk m n nonmon isstop o
        else some o
    else some o

/-- `SolversSMLS::Run`, SolversSMLS.cpp:7-154. -/
def run (env : Env K X E) (cfg : Cfg K X E) (hk : Hooks K X E M) (m n : Nat) (o : Obj K X E M) : Option (Obj K X E M) :=
  let o := prologue env o
  (loop env cfg hk m n false (isStopped env cfg o) o).map fun o => { o with lengthSeries := o.iter + 1 }

/-- `Solvers::SetProbX`, Solvers.cpp:66-74, and `SolversSM::SetProbX`, SolversSM.cpp:95-102: both iterates become the new
initial iterate, the gradients and directions are reset to empty vectors (`e`); every other member keeps its value. The
problem itself is the `Env` of the following run. `own` is what the derived class resets. -/
def setProbX (e : E) (reset : M → M) (x : X) (o : Obj K X E M) : Obj K X E M :=
  { o with x1 := x, x2 := x, gf1 := e, gf2 := e, eta1 := e, eta2 := e, own := reset o.own }

/-! ### The derived classes -/

/-- `RSD::GetSearchDir`, RSD.cpp:26-36 (`UpdateData` is the empty function of `SolversSMLS`). -/
def rsd (env : Env K X E) : Hooks K X E Unit where
  getSearchDir o :=
    let eta := env.smul (env.lit (-1) 1) (env.precond o.x1 o.gf1)
    (if env.le (-env.sqrt env.eps) (env.metric o.x1 eta o.gf1 / o.ngf1 / o.ngf1) then env.smul (env.lit (-1) 1) o.gf1 else eta, ())
  updateData o := (o.eta1, (), 0, 0)

/-- Members of `RCG` (RCG.h) and the vectors `Pgf1`, `Pgf2` of `SolversSM` that only this solver carries over. -/
structure CGOwn (K E : Type*) where
  sigma : K
  Pgf1 : E
  Pgf2 : E

/-- `RCGmethods` (RCG.h). -/
inductive CGKind
  | fr | pr | hs | frpr | dy | hz
deriving DecidableEq

/-- `sigma` and `Teta1` after the `switch`, RCG.cpp:98-143; the last component is 1 when the direction is transported. -/
def cgSigma (env : Env K X E) (kind : CGKind) (o : Obj K X E (CGOwn K E)) (Tgf1 Pgf2 : E) : K × E :=
  let Teta := env.transport o.x1 o.eta2 o.x2 o.eta1
  let y := env.lin (env.lit 1 1) o.gf2 (env.lit (-1) 1) Tgf1
  let frr := env.metric o.x2 o.gf2 Pgf2 / env.metric o.x1 o.gf1 o.own.Pgf1
  match kind with
  | .fr => (frr, Teta)
  | .pr =>
    let s := env.metric o.x2 Pgf2 y / env.metric o.x1 o.gf1 o.own.Pgf1
    (if env.lt s (env.lit 0 1) then env.lit 0 1 else s, Teta)
  | .hs => (env.metric o.x2 Pgf2 y / env.metric o.x2 y Teta, Teta)
  | .frpr =>
    let prr := env.metric o.x2 Pgf2 y / env.metric o.x1 o.gf1 o.own.Pgf1
    (if env.lt prr (-frr) then -frr else if env.lt frr prr then frr else prr, Teta)
  | .dy => (env.metric o.x2 o.gf2 Pgf2 / env.metric o.x2 y Teta, Teta)
  | .hz =>
    let yp := env.metric o.x2 y Teta
    let z := env.lin (env.lit 1 1) y (-(env.lit 2 1 * env.metric o.x2 y y / yp)) Teta
    (env.metric o.x2 z Pgf2 / yp, Teta)

/-- `RCG::GetSearchDir`, RCG.cpp:74-86, and `RCG::UpdateData`, RCG.cpp:88-149. -/
def rcg (env : Env K X E) (kind : CGKind) : Hooks K X E (CGOwn K E) where
  getSearchDir o :=
    if o.iter = 0 || env.le (-env.sqrt env.eps) (env.metric o.x1 o.eta1 o.gf1 / o.ngf1 / o.ngf1) then
      let P := env.precond o.x1 o.gf1
      let eta := env.smul (env.lit (-1) 1) P
      (if env.le (-env.sqrt env.eps) (env.metric o.x1 eta o.gf1 / o.ngf1 / o.ngf1) then env.smul (env.lit (-1) 1) o.gf1 else eta,
        { o.own with Pgf1 := P })
    else (o.eta1, o.own)
  updateData o :=
    let Tgf1 := env.transport o.x1 o.eta2 o.x2 o.gf1
    let Pgf2 := env.precond o.x2 o.gf2
    if env.lt (env.lit 1 10) (env.abs (env.metric o.x2 o.gf2 Tgf1) / env.metric o.x1 o.gf1 o.gf1) then
      (env.smul (env.lit (-1) 1) o.gf2, ⟨env.lit 0 1, Pgf2, Pgf2⟩, 1, 0)
    else
      let (sigma, Teta) := cgSigma env kind o Tgf1 Pgf2
      (if env.eq sigma (env.lit 0 1) then env.smul (env.lit (-1) 1) o.gf2
        else env.lin (env.lit (-1) 1) o.gf2 sigma Teta, ⟨sigma, Pgf2, Pgf2⟩, 1, 1)

/-- Linear operators of the quasi-Newton solvers (`LinearOPE` with the functions of Manifold.cpp that act on it). -/
structure OpEnv (K X E L : Type*) where
  /-- `LinearOPEEta` -/
  app : X → L → E → E
  /-- `TranHInvTran` -/
  tran : X → E → X → L → L
  /-- `HaddScaledRank1OPE` -/
  rank1 : X → L → K → E → E → L
  /-- `ScaledIdOPE` -/
  scaledId : L → K → L
  /-- `Beta` -/
  beta : X → E → K
  /-- `pow(ngf2, mu)` -/
  powmu : K → K
  isconvex : Bool
  nu : K

/-- Members of `RBFGS` (RBFGS.h, SolversSMLS.h). -/
structure BFGSOwn (K E L : Type*) where
  H : L
  s : E
  y : E
  betay : K
  inpsy : K
  inpss : K
  isupdated : Bool

/-- `RBFGS::GetSearchDir`, RBFGS.cpp:97-101, and `RBFGS::UpdateDataRBFGS`, RBFGS.cpp:134-163. -/
def rbfgs {L : Type*} (env : Env K X E) (op : OpEnv K X E L) : Hooks K X E (BFGSOwn K E L) where
  getSearchDir o := (env.smul (env.lit (-1) 1) (op.app o.x1 o.own.H o.gf1), o.own)
  updateData o :=
    let s := env.transport o.x1 o.eta2 o.x2 o.eta2
    let Tgf1 := env.transport o.x1 o.eta2 o.x2 o.gf1
    let betay := op.beta o.x1 o.eta2
    let y := env.lin (env.lit 1 1 / betay) o.gf2 (env.lit (-1) 1) Tgf1
    let inpsy := env.metric o.x2 s y
    let H := if op.isconvex && decide (o.iter = 1) && env.lt (env.lit 0 1) inpsy
      then op.scaledId o.own.H (inpsy / env.metric o.x2 y y) else o.own.H
    let H := op.tran o.x1 o.eta2 o.x2 H
    let inpss := env.metric o.x2 s s
    if env.le (op.nu * op.powmu o.ngf2) (inpsy / inpss) &&
        (env.lt (o.ngf2 / o.ngf0) (env.lit 1 1000) || (env.lt env.eps inpss && env.lt env.eps inpsy)) then
      let H := op.rank1 o.x2 H (env.lit (-1) 1 / inpsy) s (op.app o.x2 H y)
      let H := op.rank1 o.x2 H (env.lit (-1) 1 / inpsy) (op.app o.x2 H y) s
      let H := op.rank1 o.x2 H (env.lit 1 1 / inpsy) s s
      (o.eta1, ⟨H, s, y, betay, inpsy, inpss, true⟩, 1, 1)
    else (o.eta1, ⟨H, s, y, betay, inpsy, inpss, false⟩, 1, 1)

/-- `RBFGS::SetProbX`, RBFGS.cpp:18-43: `H` becomes the given operator or the identity. -/
def rbfgsReset {L : Type*} (e : E) (H0 : L) (w : BFGSOwn K E L) : BFGSOwn K E L := { w with H := H0, s := e, y := e }

end Verif.Obj
