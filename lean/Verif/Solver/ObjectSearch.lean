import Verif.Solver.Object

/-!
# All line searches of `SolversSMLS`, as functions of the members of the object

`Verif.Solver.Object` contains the Armijo search and treats the others as arbitrary functions. Here `LinesearchStrongWolfe`, `Zoom`, `LinesearchWolfe`, `LinesearchExact` and the search given by the user
are written out on the members they read and leave behind, again for numbers of any kind (rounding, infinities and NaN included). What matters is which members are set on which way out.
-/

namespace Verif.Obj

variable {K X E M : Type*} [Add K] [Sub K] [Mul K] [Div K] [Neg K]

/-- The further members of `LSstatusSetSM` (SolversSMLS.h:43, numbered as there). -/
def Status.noCurv : Status := .other 0
def Status.maxStep : Status := .other 2
def Status.nonExact : Status := .other 3
def Status.lsError : Status := .other 4

/-- Parameters the searches read besides those of `Cfg`: `LS_beta`, `Maxstepsize`; `big` is `std::numeric_limits<realdp>::max()`. -/
structure LSCfg (K : Type*) where
  beta : K
  maxstep : K
  big : K

/-- `f1 + LS_alpha * stepsize * initialslope`. -/
def decLine (cfg : Cfg K X E) (o : Obj K X E M) : K := o.f1 + cfg.alpha * o.stepsize * o.initialslope

/-- `f2 <= f1 + LS_alpha * stepsize * initialslope`. -/
def decOk (env : Env K X E) (cfg : Cfg K X E) (o : Obj K X E M) : Bool := env.le o.f2 (decLine cfg o)

/-- `f2 > f1 + LS_alpha * stepsize * initialslope`. -/
def decBad (env : Env K X E) (cfg : Cfg K X E) (o : Obj K X E M) : Bool := env.lt (decLine cfg o) o.f2

/-- `newslope < LS_beta * initialslope`. -/
def steep (env : Env K X E) (ls : LSCfg K) (o : Obj K X E M) : Bool := env.lt o.newslope (ls.beta * o.initialslope)

/-! ## Strong Wolfe -/

/-- The next trial step of `Zoom`, SolversSMLS.cpp:524-528. -/
def zoomPick (env : Env K X E) (cfg : Cfg K X E) (xlo xhi fxlo fxhi slo : K) : K :=
  let d := xhi - xlo
  let t := -slo * d * d / env.lit 2 1 / (fxhi - (fxlo + slo * d))
  let t := if env.lt t (d * cfg.ratio1) then d * cfg.ratio1 else t
  let t := if env.lt t (d * cfg.ratio2) then t else d * cfg.ratio2
  xlo + t

/-- The loop of `SolversSMLS::Zoom`, SolversSMLS.cpp:518-563. The first argument is `9 - times`: the tenth pass sets `stepsize` and returns with an error before the function is evaluated. -/
def zoom (env : Env K X E) (cfg : Cfg K X E) (ls : LSCfg K) : Nat → K → K → K → K → K → Obj K X E M → Obj K X E M
  | 0, xlo, xhi, fxlo, fxhi, slo, o => { o with stepsize := zoomPick env cfg xlo xhi fxlo fxhi slo, status := .lsError }
  | n + 1, xlo, xhi, fxlo, fxhi, slo, o =>
    let o := h env { o with stepsize := zoomPick env cfg xlo xhi fxlo fxhi slo }
    if decBad env cfg o || env.le fxlo o.f2 then
      if env.le o.stepsize cfg.minstep then { o with status := .minStep }
      else zoom env cfg ls n xlo o.stepsize fxlo o.f2 slo o
    else
      let o := dh env o
      if env.le (env.abs o.newslope) (-ls.beta * o.initialslope) then o
      else
        let b := env.le (env.lit 0 1) (o.newslope * (xhi - xlo))
        if env.le o.stepsize cfg.minstep then { o with status := .minStep }
        else zoom env cfg ls n o.stepsize (if b then xlo else xhi) o.f2 (if b then fxlo else fxhi) o.newslope o

/-- The loop of `SolversSMLS::LinesearchStrongWolfe`, SolversSMLS.cpp:482-516; `pre`, `fpre`, `spre` are its local variables. -/
def swLoop (env : Env K X E) (cfg : Cfg K X E) (ls : LSCfg K) : Nat → K → K → K → Obj K X E M → Option (Obj K X E M)
  | 0, _, _, _, _ => none
  | n + 1, pre, fpre, spre, o =>
    let o := h env o
    if decBad env cfg o || env.le fpre o.f2 then some (zoom env cfg ls 9 pre o.stepsize fpre o.f2 spre o)
    else
      let o := dh env o
      if env.le (env.abs o.newslope) (-ls.beta * o.initialslope) then some o
      else if env.le (env.lit 0 1) o.newslope then some (zoom env cfg ls 9 o.stepsize pre o.f2 fpre o.newslope o)
      else if env.eq o.stepsize ls.maxstep then some { o with status := .maxStep }
      else
        let t := -o.initialslope * o.stepsize * o.stepsize / env.lit 2 1 / (o.f2 - o.f1 - o.initialslope * o.stepsize)
        let t := if env.lt (env.lit 11 10 * o.stepsize) t then t else env.lit 11 10 * o.stepsize
        let t := if env.lt t ls.maxstep then t else ls.maxstep
        swLoop env cfg ls n o.stepsize o.f2 o.newslope { o with stepsize := t }

/-- `SolversSMLS::LinesearchStrongWolfe`. -/
def swSearch (env : Env K X E) (cfg : Cfg K X E) (ls : LSCfg K) (n : Nat) (o : Obj K X E M) : Option (Obj K X E M) :=
  swLoop env cfg ls n (env.lit 0 1) ls.big o.initialslope { o with status := .success }

/-! ## Weak Wolfe -/

/-- The loop that doubles the step, SolversSMLS.cpp:711-722; the first argument counts the passes left (`times > 10` ends the loop after the eleventh). Returns `prestepsize` and `f2pre` too. -/
def wExpand (env : Env K X E) (cfg : Cfg K X E) (ls : LSCfg K) : Nat → K → K → Obj K X E M → K × K × Obj K X E M
  | 0, pre, fpre, o => (pre, fpre, o)
  | k + 1, pre, fpre, o =>
    if decOk env cfg o && steep env ls o && env.lt o.stepsize ls.maxstep then
      let o' := h env { o with stepsize := if env.lt (env.lit 2 1 * o.stepsize) ls.maxstep then env.lit 2 1 * o.stepsize else ls.maxstep }
      wExpand env cfg ls k o.stepsize o.f2 (if decOk env cfg o' then dh env o' else o')
    else (pre, fpre, o)

/-- The interpolation loop, SolversSMLS.cpp:744-769. -/
def wInterp (env : Env K X E) (cfg : Cfg K X E) (ls : LSCfg K) : Nat → K → K → K → K → Obj K X E M → Obj K X E M
  | 0, _, _, _, _, o => o
  | k + 1, lo, diff, flo, fhi, o =>
    if (decBad env cfg o || steep env ls o) && env.le cfg.minstep diff then
      let t := -o.newslope * diff * diff / env.lit 2 1 / (fhi - (flo + o.newslope * diff))
      let t := if env.lt t (env.lit 2 10 * diff) then env.lit 2 10 * diff else t
      let o := h env { o with stepsize := lo + t }
      if decBad env cfg o then wInterp env cfg ls k lo t flo o.f2 o
      else
        let o := dh env o
        if steep env ls o then wInterp env cfg ls k o.stepsize (diff - t) o.f2 fhi o else wInterp env cfg ls k lo diff flo fhi o
    else o

/-- The trial step after a failed test, SolversSMLS.cpp:788-810. -/
def wBack (env : Env K X E) (pre fpre : K) (o : Obj K X E M) : K :=
  let t :=
    if env.eq o.stepsize o.initiallength then -o.initialslope * o.initiallength * o.initiallength / env.lit 2 1 / (o.f2 - o.f1 - o.initialslope * o.initiallength)
    else
      let n1 := env.lit 1 1 / o.stepsize / o.stepsize
      let n2 := env.lit 1 1 / pre / pre
      let n3 := (o.f2 - o.f1 - o.stepsize * o.initialslope) / (o.stepsize - pre)
      let n4 := (fpre - o.f1 - pre * o.initialslope) / (o.stepsize - pre)
      let a := n1 * n3 - n2 * n4
      let b := -pre * n1 * n3 + o.stepsize * n2 * n4
      let disc := b * b - env.lit 3 1 * a * o.initialslope
      let disc := if env.lt disc (env.lit 0 1) then env.lit 0 1 else disc
      let t := if env.lt (env.abs a) (env.lit 1 10000000000) then -o.initialslope / env.lit 2 1 / b else (-b + env.sqrt disc) / env.lit 3 1 / a
      if env.lt (env.lit 1 2 * o.stepsize) t then env.lit 1 2 * o.stepsize else t
  if env.le t (env.lit 1 100 * o.stepsize) then env.lit 1 100 * o.stepsize else t

/-- What follows the doubling loop, SolversSMLS.cpp:723-779. -/
def wAfter (env : Env K X E) (cfg : Cfg K X E) (ls : LSCfg K) (pre fpre : K) (o : Obj K X E M) : Obj K X E M :=
  if env.le ls.maxstep o.stepsize then { gradX2 env o with status := .maxStep }
  else if !(env.eq o.stepsize o.initiallength) && decBad env cfg o then
    let b := env.lt o.stepsize pre
    let o := wInterp env cfg ls 11 (if b then o.stepsize else pre) (env.abs (pre - o.stepsize)) (if b then o.f2 else fpre) (if b then fpre else o.f2) o
    if steep env ls o then { dh env (h env o) with status := .noCurv } else { o with status := .success }
  else { o with status := .success }

/-- The loop of `SolversSMLS::LinesearchWolfe`, SolversSMLS.cpp:692-813. -/
def wLoop (env : Env K X E) (cfg : Cfg K X E) (ls : LSCfg K) : Nat → K → K → Obj K X E M → Option (Obj K X E M)
  | 0, _, _, _ => none
  | n + 1, pre, fpre, o =>
    let o := h env o
    if decOk env cfg o then
      let o := dh env o
      if steep env ls o then
        let r := wExpand env cfg ls 11 pre fpre o
        some (wAfter env cfg ls r.1 r.2.1 r.2.2)
      else some { o with status := .success }
    else if env.le o.stepsize cfg.minstep then some { dh env (h env { o with stepsize := cfg.minstep }) with status := .minStep }
    else wLoop env cfg ls n o.stepsize o.f2 { o with stepsize := wBack env pre fpre o }

/-- `SolversSMLS::LinesearchWolfe`. -/
def wSearch (env : Env K X E) (cfg : Cfg K X E) (ls : LSCfg K) (n : Nat) (o : Obj K X E M) : Option (Obj K X E M) :=
  wLoop env cfg ls n (env.lit 0 1) (env.lit 0 1) { o with status := .success }

/-! ## Exact search -/

/-- `minstep` of `LinesearchExact`, SolversSMLS.cpp:397. -/
def exMin (env : Env K X E) : K := env.lit 100 1 * env.sqrt env.eps

/-- The Armijo loop inside `LinesearchExact`, SolversSMLS.cpp:413-425. The local variables `sf2` and `sgf2` are kept in the members `f2` and `newslope`, which the function does not read before it
sets them at its end. -/
def exInner (env : Env K X E) (cfg : Cfg K X E) (a1 dir sf1 sgf1 : K) : Nat → K → Obj K X E M → Option (K × Obj K X E M)
  | 0, _, _ => none
  | n + 1, t, o =>
    if env.lt (sf1 + cfg.alpha * t * sgf1 * dir) o.f2 then
      let t := t * cfg.ratio1
      let o := h env { o with stepsize := a1 + t * dir }
      if env.lt (t * cfg.ratio1) (exMin env) then
        let o := dh env o
        if env.lt (env.lit 1 10) (env.abs (o.newslope / o.initialslope)) && env.lt (o.f1 + cfg.alpha * o.stepsize * o.ngf1) o.f2 then some (t, { o with status := .nonExact })
        else some (t, o)
      else exInner env cfg a1 dir sf1 sgf1 n t o
    else some (t, o)

/-- The quasi-Newton loop of `LinesearchExact`, SolversSMLS.cpp:405-453; the first argument counts the passes left. -/
def exLoop (env : Env K X E) (cfg : Cfg K X E) (n : Nat) : Nat → K → K → K → K → Obj K X E M → Option (Obj K X E M)
  | 0, _, _, _, _, o => some o
  | k + 1, a1, B, sgf1, sf1, o =>
    let dir := -sgf1 / B
    match exInner env cfg a1 dir sf1 sgf1 n (env.lit 1 1) (h env { o with stepsize := a1 + env.lit 1 1 * dir }) with
    | none => none
    | some (t, o) =>
      if o.status = .nonExact then some o
      else
        let s := t * dir
        let o := dh env o
        if env.lt (env.abs s) (exMin env) || env.lt (env.abs (o.newslope / o.initialslope)) (env.lit 1 1000000) then some o
        else
          let y := o.newslope - sgf1
          exLoop env cfg n k (a1 + t * dir) (if env.lt (env.lit 0 1) (y / s) then y / s else B) o.newslope o.f2 o

/-- `SolversSMLS::LinesearchExact`, SolversSMLS.cpp:394-461 (double precision). -/
def exSearch (env : Env K X E) (cfg : Cfg K X E) (ls : LSCfg K) (n : Nat) (o : Obj K X E M) : Option (Obj K X E M) :=
  (exLoop env cfg n 20 (env.lit 0 1) (env.abs (o.initialslope / o.initiallength)) o.initialslope o.f1 { o with status := .success }).map fun o =>
    let o := if env.le o.stepsize cfg.minstep then { o with status := .minStep } else o
    if env.le ls.maxstep o.stepsize then { o with status := .maxStep } else o

/-! ## The user's search -/

/-- `LSSM_INPUTFUN`, SolversSMLS.cpp:70-87; the conversion of `eta1` to an extrinsic vector is part of `user`. `pureInput` is `IsPureLSInput`. -/
def inSearch (env : Env K X E) (cfg : Cfg K X E) (pureInput : Bool) (user : Nat → X → E → K → K → K) (n : Nat) (o : Obj K X E M) : Option (Obj K X E M) :=
  let t := user o.iter o.x1 o.eta1 o.stepsize o.initialslope
  let t := if env.lt t env.eps then o.initiallength else t
  let o := { o with stepsize := t, initiallength := t }
  if pureInput then some (gradX2 env (h env o)) else armijo env cfg n o

/-! ## Runs with any search -/

/-- Lines 59-93 of `SolversSMLS::Run` with the search `ls`. -/
def searchWith (env : Env K X E) (cfg : Cfg K X E) (ls : Obj K X E M → Option (Obj K X E M)) (o : Obj K X E M) : Option (Obj K X E M) :=
  if env.lt (o.ngf1 / (o.ngf0 + cfg.tol)) cfg.accuracy then
    some (gradX2 env (h env { o with stepsize := if env.lt (env.lit 0 1) cfg.finalstep then cfg.finalstep else o.initiallength }))
  else ls o

/-- The loop of `SolversSMLS::Run`, SolversSMLS.cpp:47-144, with the search `ls`. -/
def loopWith (env : Env K X E) (cfg : Cfg K X E) (hk : Hooks K X E M) (ls : Obj K X E M → Option (Obj K X E M)) : Nat → Bool → Bool → Obj K X E M → Option (Obj K X E M)
  | 0, _, _, _ => none
  | n + 1, nonmon, isstop, o =>
    if ((!isstop && decide (o.iter < cfg.maxIter)) || decide (o.iter < cfg.minIter)) && decide (o.status = .success) then
      match searchWith env cfg ls (prepare env cfg hk o) with
      | none => none
      | some o =>
        if env.finite o.f2 then
          let o := afterSearch env hk o
          let isstop := isStopped env cfg o
          let (nonmon, o) := advance env cfg nonmon o
          loopWith env cfg hk ls n nonmon isstop o
        else some o
    else some o

/-- `SolversSMLS::Run`, SolversSMLS.cpp:7-154, with the search `ls`. -/
def runWith (env : Env K X E) (cfg : Cfg K X E) (hk : Hooks K X E M) (ls : Obj K X E M → Option (Obj K X E M)) (n : Nat) (o : Obj K X E M) : Option (Obj K X E M) :=
  let o := prologue env o
  (loopWith env cfg hk ls n false (isStopped env cfg o) o).map fun o => { o with lengthSeries := o.iter + 1 }

end Verif.Obj
