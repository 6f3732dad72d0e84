import Verif.Solver.Object

/-!
# A trust-region solver object across several calls of `Run`

As `Verif.Solver.Object`, for `SolversSMTR` and the classes `RTRSD`, `RTRNewton` and `RTRSR1`. Numbers are arbitrary. The
clock and printing are not modelled; `LRTRSR1`, which keeps its buffers across runs, is not modelled here.
-/

namespace Verif.Obj

/-- Further operations of the manifold and the problem used by the trust-region solvers. -/
structure TREnv (K X E : Type*) extends Env K X E where
  /-- `ScalarVectorAddVector` -/
  axpy : K → E → E → E
  /-- `Projection` -/
  proj : X → E → E
  /-- `pow(norm_r0, theta)` -/
  powtheta : K → K

/-- `tCGstatusSetSM` (SolversSMTR.h). -/
inductive TStatus
  | negCurv | excRegion | minDec | lcon | scon | maxIter | error
deriving DecidableEq

/-- Parameters of `SolversSMTR`. -/
structure TRCfg (K X : Type*) where
  maxIter : Nat
  minIter : Nat
  tol : K
  accuracy : K
  initDelta : K
  minDelta : K
  maxDelta : K
  acceptRho : K
  shrink : K
  magnify : K
  minInner : Nat
  maxInner : Nat
  kappa : K
  useRand : Bool
  stop : StopKind K X

/-- Counters (Solvers.h). -/
structure TRCounts where
  nf : Nat
  ng : Nat
  nR : Nat
  nV : Nat
  nH : Nat

/-- Members of `Solvers`, `SolversSM` and `SolversSMTR`; `own` holds those of the derived class. -/
structure TRObj (K X E M : Type*) where
  x1 : X
  x2 : X
  f1 : K
  f2 : K
  gf1 : E
  gf2 : E
  eta1 : E
  eta2 : E
  Heta2 : E
  ngf0 : K
  ngf1 : K
  ngf2 : K
  Delta : K
  rho : K
  tcg : TStatus
  inner : Nat
  iter : Nat
  series : List (K × K)
  lengthSeries : Nat
  cnt : TRCounts
  own : M

/-- `HessianEta`, `UpdateData` (new `gf2`, members, evaluations of the gradient, transports) and `Acceptence` (the same
without transports). -/
structure TRHooks (K X E M : Type*) where
  hess : TRObj K X E M → E → E
  updateData : TRObj K X E M → E × M × Nat × Nat
  acceptence : TRObj K X E M → E × M × Nat

variable {K X E M : Type*} [Add K] [Sub K] [Mul K] [Div K] [Neg K]

/-- Local variables of the loop of `tCG_TR`. -/
structure TCG (K E : Type*) where
  eta : E
  Heta : E
  r : E
  delta : E
  e_Pe : K
  e_Pd : K
  d_Pd : K
  z_r : K
  modelv : K

/-- The loop of `SolversSMTR::tCG_TR`, SolversSMTR.cpp:183-235; the first argument counts the remaining passes, `j` the
finished ones. Returns `eta2`, the status, `innerIter` and the number of Hessian actions. -/
def tcgLoop (env : TREnv K X E) (cfg : TRCfg K X) (H : E → E) (x1 : X) (gf1 : E) (Delta norm_r0 : K) :
    Nat → Nat → TCG K E → E × TStatus × Nat × Nat
  | 0, j, t => (t.eta, .maxIter, j, 0)
  | n + 1, j, t =>
    let Hd := H t.delta
    let d_Hd := env.metric x1 t.delta Hd
    let alpha := t.z_r / d_Hd
    let e_Pe_new := t.e_Pe + env.lit 2 1 * alpha * t.e_Pd + alpha * alpha * t.d_Pd
    if env.le d_Hd (env.lit 0 1) || env.le (Delta * Delta) e_Pe_new then
      let tau := (-t.e_Pd + env.sqrt (t.e_Pd * t.e_Pd + t.d_Pd * (Delta * Delta - t.e_Pe))) / t.d_Pd
      (env.axpy tau t.delta t.eta, if env.lt d_Hd (env.lit 0 1) then .negCurv else .excRegion, j, 1)
    else
      let eta := env.axpy alpha t.delta t.eta
      let Heta := env.axpy alpha Hd t.Heta
      let model := env.metric x1 eta gf1 + env.lit 1 2 * env.metric x1 eta Heta
      if env.le t.modelv model then (eta, .error, j, 1)
      else
        let r := env.proj x1 (env.axpy alpha Hd t.r)
        let norm_r := env.sqrt (env.metric x1 r r)
        let tempnum := env.powtheta norm_r0
        if decide (cfg.minInner ≤ j) && env.le norm_r (norm_r0 * if env.lt tempnum cfg.kappa then tempnum else cfg.kappa) then
          (eta, if env.lt cfg.kappa tempnum then .lcon else .scon, j, 1)
        else
          let z := env.precond x1 r
          let z_r := env.metric x1 z r
          let beta := z_r / t.z_r
          let delta := env.axpy (env.lit (-1) 1) z (env.smul beta t.delta)
          let res := tcgLoop env cfg H x1 gf1 Delta norm_r0 n (j + 1)
            ⟨eta, Heta, r, delta, e_Pe_new, beta * (t.e_Pd + alpha * t.d_Pd), z_r + beta * beta * t.d_Pd, z_r, model⟩
          (res.1, res.2.1, res.2.2.1, res.2.2.2 + 1)

/-- `SolversSMTR::tCG_TR`, SolversSMTR.cpp:143-237. -/
def tcg (env : TREnv K X E) (cfg : TRCfg K X) (H : E → E) (x1 : X) (gf1 eta1 : E) (Delta : K) : E × TStatus × Nat × Nat :=
  let Heta := if cfg.useRand then H eta1 else env.smul (env.lit 1 1) eta1
  let r := if cfg.useRand then env.axpy (env.lit 1 1) gf1 Heta else gf1
  let e_Pe := if cfg.useRand then env.metric x1 eta1 eta1 else env.lit 0 1
  let norm_r0 := env.sqrt (env.metric x1 r r)
  let z := env.precond x1 r
  let z_r := env.metric x1 z r
  let delta := env.smul (env.lit (-1) 1) z
  let e_Pd := if cfg.useRand then env.metric x1 eta1 delta else env.lit 0 1
  let modelv := if cfg.useRand then env.metric x1 eta1 gf1 + env.lit 1 2 * env.metric x1 eta1 Heta else env.lit 0 1
  let res := tcgLoop env cfg H x1 gf1 Delta norm_r0 cfg.maxInner 0 ⟨eta1, Heta, r, delta, e_Pe, e_Pd, z_r, z_r, modelv⟩
  (res.1, res.2.1, res.2.2.1, res.2.2.2 + if cfg.useRand then 1 else 0)

/-- `SolversSM::IsStopped`, SolversSM.cpp:53-73, without the clock. -/
def trStopped (env : TREnv K X E) (cfg : TRCfg K X) (o : TRObj K X E M) : Bool :=
  match cfg.stop with
  | .user p => p o.x2 (o.series.map fun s => (s.1, s.2, s.2)) o.lengthSeries o.ngf2 o.ngf0
  | .funRel => env.lt (env.abs ((o.f1 - o.f2) / (env.abs o.f1 + env.lit 1 1))) cfg.tol && decide (o.iter > 0)
  | .gradF => env.lt o.ngf2 cfg.tol
  | .gradF0 => env.lt (o.ngf2 / o.ngf0) cfg.tol

/-- Lines 9-32 of `SolversSMTR::Run`. -/
def trPrologue (env : TREnv K X E) (cfg : TRCfg K X) (o : TRObj K X E M) : TRObj K X E M :=
  let f1 := env.f o.x1
  let gf1 := env.grad o.x1
  let ngf0 := env.sqrt (env.metric o.x1 gf1 gf1)
  { o with f1 := f1, f2 := f1, gf1 := gf1, ngf0 := ngf0, ngf1 := ngf0, ngf2 := ngf0, iter := 0, series := [(f1, ngf0)]
           Delta := cfg.initDelta, cnt := { o.cnt with nf := o.cnt.nf + 1, ng := o.cnt.ng + 1 } }

/-- Lines 36-39: `InitialVector`, `tCG_TR`, retraction and function value. -/
def trTrial (env : TREnv K X E) (cfg : TRCfg K X) (hk : TRHooks K X E M) (o : TRObj K X E M) : TRObj K X E M :=
  let o := { o with eta1 := env.smul (env.lit 0 1) o.gf1 }
  let t := tcg env cfg (hk.hess o) o.x1 o.gf1 o.eta1 o.Delta
  let x2 := env.retr o.x1 t.1
  { o with eta2 := t.1, tcg := t.2.1, inner := t.2.2.1, x2 := x2, f2 := env.f x2
           cnt := { o.cnt with nf := o.cnt.nf + 1, nR := o.cnt.nR + 1, nH := o.cnt.nH + t.2.2.2 } }

/-- Lines 45-48: the ratio and `UpdateData`. -/
def trRatio (env : TREnv K X E) (hk : TRHooks K X E M) (o : TRObj K X E M) : TRObj K X E M :=
  let o := { o with Heta2 := hk.hess o o.eta2, cnt := { o.cnt with nH := o.cnt.nH + 1 } }
  let o := { o with eta1 := env.axpy (env.lit 1 2) o.Heta2 o.gf1 }
  let o := { o with rho := (o.f1 - o.f2) / (-env.metric o.x1 o.eta2 o.eta1) }
  let u := hk.updateData o
  { o with gf2 := u.1, own := u.2.1, cnt := { o.cnt with ng := o.cnt.ng + u.2.2.1, nV := o.cnt.nV + u.2.2.2 } }

/-- Lines 50-77: the new radius, `none` when the loop is left because it fell below the minimum. The flag says that. -/
def trRadius (env : TREnv K X E) (cfg : TRCfg K X) (o : TRObj K X E M) : K × Bool :=
  if env.lt (env.lit 75 100) o.rho then
    let D := if o.tcg = .excRegion ∨ o.tcg = .negCurv ∨ o.tcg = .maxIter then o.Delta * cfg.magnify else o.Delta
    (if env.lt cfg.maxDelta D then cfg.maxDelta else D, false)
  else if env.lt o.rho (env.lit 25 100) && env.le cfg.accuracy (o.ngf1 / (o.ngf0 + cfg.tol)) then
    let D := o.Delta * cfg.shrink
    (D, env.lt D cfg.minDelta)
  else (o.Delta, false)

/-- The test of lines 79-82. -/
def trAccepts (env : TREnv K X E) (cfg : TRCfg K X) (o : TRObj K X E M) : Bool :=
  env.lt cfg.acceptRho o.rho ||
  (env.lt (env.abs (o.f1 - o.f2) / (env.abs o.f1 + env.lit 1 1)) (env.sqrt env.eps) && env.lt o.f2 o.f1) ||
  (env.lt (o.ngf1 / (o.ngf0 + cfg.tol)) cfg.accuracy &&
    (env.lt o.f2 o.f1 || decide (o.tcg = .minDec ∨ o.tcg = .lcon ∨ o.tcg = .scon)))

/-- Lines 84-86: `Acceptence` and the new gradient norm. -/
def trAccept (env : TREnv K X E) (hk : TRHooks K X E M) (o : TRObj K X E M) : TRObj K X E M :=
  let a := hk.acceptence o
  let o := { o with gf2 := a.1, own := a.2.1, cnt := { o.cnt with ng := o.cnt.ng + a.2.2 } }
  { o with ngf2 := env.sqrt (env.metric o.x2 o.gf2 o.gf2) }

/-- Lines 87-97: exchange of the iterates. -/
def trSwap (o : TRObj K X E M) : TRObj K X E M :=
  { o with x1 := o.x2, x2 := o.x1, gf1 := o.gf2, gf2 := o.gf1, iter := o.iter + 1, f1 := o.f2, ngf1 := o.ngf2 }

/-- Lines 108-113. -/
def trRecord (o : TRObj K X E M) : TRObj K X E M := { o with series := o.series ++ [(o.f2, o.ngf2)] }

/-- The loop of `SolversSMTR::Run`, SolversSMTR.cpp:34-114. -/
def trLoop (env : TREnv K X E) (cfg : TRCfg K X) (hk : TRHooks K X E M) : Nat → Bool → TRObj K X E M → Option (TRObj K X E M)
  | 0, _, _ => none
  | n + 1, isstop, o =>
    if (!isstop && decide (o.iter < cfg.maxIter)) || decide (o.iter < cfg.minIter) then
      let o := trTrial env cfg hk o
      if env.finite o.f2 then
        let o := trRatio env hk o
        let D := trRadius env cfg o
        let o := { o with Delta := D.1 }
        if D.2 then some o
        else if trAccepts env cfg o then
          let o := trAccept env hk o
          trLoop env cfg hk n (trStopped env cfg o) (trRecord (trSwap o))
        else trLoop env cfg hk n isstop (trRecord { o with iter := o.iter + 1 })
      else some o
    else some o

/-- `SolversSMTR::Run`, SolversSMTR.cpp:7-121. -/
def trRun (env : TREnv K X E) (cfg : TRCfg K X) (hk : TRHooks K X E M) (n : Nat) (o : TRObj K X E M) : Option (TRObj K X E M) :=
  let o := trPrologue env cfg o
  (trLoop env cfg hk n (trStopped env cfg o) o).map fun o => { o with lengthSeries := o.iter + 1 }

/-- `SolversSMTR::SetProbX`, SolversSMTR.cpp:291-295, with `Solvers::SetProbX`, Solvers.cpp:66-74 (the version of
`SolversSM` is not called, so `eta1` and `eta2` keep their values). -/
def trSetProbX (e : E) (reset : M → M) (x : X) (o : TRObj K X E M) : TRObj K X E M :=
  { o with x1 := x, x2 := x, gf1 := e, gf2 := e, Heta2 := e, own := reset o.own }

/-- `RTRNewton` (`HessianEta`, RTRNewton.cpp:25-28) and, with the identity, `RTRSD` (RTRSD.cpp:27-31); `UpdateData` and
`Acceptence` are those of SolversSMTR.cpp:282-289. -/
def rtr (env : TREnv K X E) (H : X → E → E) : TRHooks K X E Unit where
  hess o v := H o.x1 v
  updateData o := (o.gf2, (), 0, 0)
  acceptence o := (env.grad o.x2, (), 1)

/-- Members of `RTRSR1` (RTRSR1.h). -/
structure SR1Own (K E L : Type*) where
  B : L
  s : E
  y : E
  inpss : K
  isupdated : Bool

/-- `RTRSR1`: `HessianEta` (RTRSR1.cpp:57-60, 72-75), `UpdateDataRTRSR1` (lines 77-105), `Acceptence` (lines 67-70). The
field `app` of `OpEnv` is `LinearOPEEta`; `invTran` is `InverseVectorTransport`. -/
def rtrsr1 {L : Type*} (env : TREnv K X E) (op : OpEnv K X E L) (invTran : X → E → X → E → E) : TRHooks K X E (SR1Own K E L) where
  hess o v := op.app o.x1 o.own.B v
  updateData o :=
    let gf2 := env.grad o.x2
    let y := env.axpy (env.lit (-1) 1) o.gf1 (invTran o.x1 o.eta2 o.x2 gf2)
    let s := o.eta2
    let zeta := env.axpy (env.lit (-1) 1) o.Heta2 y
    let den := env.metric o.x1 s zeta
    let B := if o.iter = 1 then op.scaledId o.own.B (env.metric o.x1 y y / env.metric o.x1 s y) else o.own.B
    let inpss := env.metric o.x1 s s
    let nrm := env.metric o.x1 zeta zeta
    if env.le (env.eps * inpss * nrm) (den * den) && (env.le env.eps nrm || env.lt (o.ngf2 / o.ngf0) (env.lit 1 1000)) then
      (gf2, ⟨op.rank1 o.x1 B (env.lit 1 1 / den) zeta zeta, s, y, inpss, true⟩, 1, 1)
    else (gf2, ⟨B, s, y, inpss, false⟩, 1, 1)
  acceptence o := (o.gf2, { o.own with B := op.tran o.x1 o.eta2 o.x2 o.own.B }, 0)

/-- `RTRSR1::SetProbX`, RTRSR1.cpp:18-43. -/
def sr1Reset {L : Type*} (e : E) (B0 : L) (w : SR1Own K E L) : SR1Own K E L := { w with B := B0, s := e, y := e }

end Verif.Obj
