import Verif.Solver.LBFGS

/-!
# Search directions of the subgradient solvers

Models of `SolversNSMSubLS::GetSearchDir` and `Increasing` (`Solvers/SolversNSMSubLS.cpp:229-311`), `RGS::GetSearchDir` (`Solvers/RGS.cpp:29-67`) and of the operators of
`RBFGSSub` (`Solvers/RBFGSSub.cpp:67-101`) and `LRBFGSSub` (`Solvers/LRBFGSSub.cpp:115-203`).

All tangent spaces are represented by one real inner product space `E`, as in `Verif.QN`. The inner solver of the minimum-norm subproblem, the objective, the retraction and the
transport are arbitrary functions; theorems state what they need of them. Exact arithmetic; a division by zero whose result is used gives `none`. Counters and printing are not kept.
-/

namespace Verif.SubDir

open Verif.QN
open scoped RealInnerProductSpace Classical

variable {E : Type*} [NormedAddCommGroup E] [InnerProductSpace ℝ E]

/-! ## Increasing -/

/-- What `Increasing` leaves: the last step size (`eta2`, `x2`, `f2` belong to it), the step size at which `gf2` was computed, and whether the loop was left through `break`. -/
structure IncRes where
  step : ℝ
  gstep : ℝ
  found : Bool

/-- The loop of `Increasing`, `SolversNSMSubLS.cpp:283-306`: `phi t = f(R(t eta1))`, `dphi t` the value of `dh()` at step `t` (which also sets `gf2`), `c = Eps / neta1`. The first
argument is the number of passes left (10 at the start). -/
noncomputable def incLoop (phi dphi : ℝ → ℝ) (f1 alpha c P hb : ℝ) : Nat → ℝ → ℝ → ℝ → ℝ → IncRes
  | 0, _, _, step, g => ⟨step, g, false⟩
  | n + 1, a, b, step, _ =>
    if dphi step + alpha * P < 0 then
      let step' := (a + b) / 2
      let ht := phi step' - f1 + alpha * c * P
      if hb > ht then incLoop phi dphi f1 alpha c P hb n step' b step' step
      else incLoop phi dphi f1 alpha c P hb n a step' step' step
    else ⟨step, step, true⟩

/-- `Increasing`, `SolversNSMSubLS.cpp:281-311`, called with `stepsize = Eps / neta1`. -/
noncomputable def increasing (phi dphi : ℝ → ℝ) (f1 alpha c P hb : ℝ) : IncRes :=
  incLoop phi dphi f1 alpha c P hb 10 0 c c c

/-! ## GetSearchDir -/

/-- The problem and the manifold along rays from `x1`: `phi eta t` is `f(R(t eta))`, `grad eta t` the gradient there, `dret eta t` is `DiffRetraction(x1, t eta, x2, eta)`,
`invTr eta t` is `InverseVectorTransport(x1, t eta, x2, .)`, `beta eta t` is `Beta(x1, t eta)`. -/
structure Rays (E : Type*) where
  phi : E → ℝ → ℝ
  grad : E → ℝ → E
  dret : E → ℝ → E
  invTr : E → ℝ → E → E
  beta : E → ℝ → ℝ

/-- `dh()`, `SolversNSMSubLS.cpp:408-415`. -/
noncomputable def Rays.dphi (R : Rays E) (eta : E) (t : ℝ) : ℝ := ⟪R.grad eta t, R.dret eta t⟫

/-- Parameters `Eps`, `Del`, `lambdaLower`, `LS_alpha`. -/
structure Par where
  Eps : ℝ
  Del : ℝ
  lambdaLower : ℝ
  alpha : ℝ

/-- How `GetSearchDir` was left: return of line 254, return of line 264, end of the loop. -/
inductive Exit where
  | small
  | descent
  | exhausted
  deriving DecidableEq

/-- The members after `GetSearchDir`. `gfs` are the gradients collected; `used` (ghost) those of them passed to the last minimum-norm subproblem; `shortest` (ghost) the solution with the
operator, `P` its squared length `Pngfsq`. `ndir` is `none` as long as it has not been assigned. -/
structure Dir (E : Type*) where
  gfs : List E
  used : List E
  shortest : E
  minPv : E
  eta1 : E
  P : ℝ
  ndir : Option ℝ
  exit : Exit

/-- The vector put into `gfs` after `Increasing`, lines 267-271: `gf2` belongs to the step `gstep`, the transport to the step `step`. -/
noncomputable def newGrad (R : Rays E) (eta : E) (r : IncRes) : E :=
  (1 / R.beta eta r.step) • R.invTr eta r.step (R.grad eta r.gstep)

/-- The loop of `GetSearchDir`, `SolversNSMSubLS.cpp:235-278`. `hull P W` is the vector found by `MinPNormConHull` for the vectors `W` and the operator `P` (its returned value is
`⟪v, P v⟫`, C51). `H` is the operator `Hv`. `none`: division by zero. The first argument is the number of passes left (`Lengthgfs - 1` at the start); `d` holds the members so far. -/
noncomputable def dirLoop (p : Par) (R : Rays E) (H : E →ₗ[ℝ] E) (hull : (E →ₗ[ℝ] E) → List E → E) (f1 : ℝ) : Nat → Dir E → Option (Dir E)
  | 0, d => some { d with exit := .exhausted }
  | n + 1, d =>
    let W := d.gfs
    let v := hull H W
    let P := ⟪v, H v⟫
    let eta1 := -H v
    let minPv := if p.Del * p.lambdaLower < √P then v else hull LinearMap.id W
    if √⟪minPv, minPv⟫ ≤ p.Del then
      some { gfs := W, used := W, shortest := v, minPv := minPv, eta1 := eta1, P := P, ndir := d.ndir, exit := .small }
    else
      let ndir := √⟪eta1, eta1⟫
      if ndir = 0 then none
      else
        let step := p.Eps / ndir
        let hb := R.phi eta1 step - f1 + p.alpha * step * P
        if hb ≤ 0 then
          some { gfs := W, used := W, shortest := v, minPv := minPv, eta1 := eta1, P := P, ndir := some ndir, exit := .descent }
        else
          let r := increasing (R.phi eta1) (R.dphi eta1) f1 p.alpha (p.Eps / ndir) P hb
          dirLoop p R H hull f1 n
            { gfs := W ++ [newGrad R eta1 r], used := W, shortest := v, minPv := minPv, eta1 := eta1, P := P, ndir := some ndir, exit := d.exit }

/-- `GetSearchDir`, `SolversNSMSubLS.cpp:229-279`: `gfs[0] = gf1`; `old` are the members left by the previous call. -/
noncomputable def getSearchDir (p : Par) (R : Rays E) (H : E →ₗ[ℝ] E) (hull : (E →ₗ[ℝ] E) → List E → E) (f1 : ℝ) (gf1 : E) (lengthgfs : Nat) (old : Dir E) : Option (Dir E) :=
  dirLoop p R H hull f1 (lengthgfs - 1) { old with gfs := [gf1] }

/-- `initialslope`, line 68. -/
noncomputable def Dir.slope (d : Dir E) : ℝ := ⟪d.minPv, d.eta1⟫

/-! ## RGS -/

/-- The steps of `RGS::GetSearchDir`, `RGS.cpp:31-48`: each random tangent vector is scaled to length `Eps`; `none` when one of them is zero. -/
noncomputable def rgsSteps (Eps : ℝ) : List E → Option (List E)
  | [] => some []
  | u :: us => if √⟪u, u⟫ = 0 then none else (rgsSteps Eps us).map fun l => (Eps / √⟪u, u⟫) • u :: l

/-- The result of `RGS::GetSearchDir`: `eta1` is `none` when it is the result of a division by zero. -/
structure RgsDir (E : Type*) where
  gfs : List E
  minPv : E
  ndir : ℝ
  eta1 : Option E

/-- `RGS::GetSearchDir`, `RGS.cpp:29-67`; `us` are the random tangent vectors, `back eta` is the gradient at `R(eta)` transported back to `x1`. -/
noncomputable def rgsDir (Eps : ℝ) (back : E → E) (hull : (E →ₗ[ℝ] E) → List E → E) (gf1 : E) (us : List E) : Option (RgsDir E) :=
  (rgsSteps Eps us).map fun steps =>
    let W := gf1 :: steps.map back
    let v := hull LinearMap.id W
    let ndir := √⟪v, v⟫
    { gfs := W, minPv := v, ndir := ndir, eta1 := if ndir = 0 then none else some ((-1 / ndir) • v) }

/-! ## Operators -/

/-- `s` after the correction, `RBFGSSub.cpp:73-77`, `LRBFGSSub.cpp:144-149`. For `y = 0` the quotient `inpsy / inpyy` is NaN, the comparison is false and `tmp` is 0. -/
noncomputable def fixS (lambdaUpper : ℝ) (s y : E) : E :=
  let tmp := if ⟪y, y⟫ = 0 then 0 else if 1 / lambdaUpper - ⟪s, y⟫ / ⟪y, y⟫ > 0 then 1 / lambdaUpper - ⟪s, y⟫ / ⟪y, y⟫ else 0
  tmp • y + s

/-- `RBFGSSub::UpdateDataRBFGSSub`, `RBFGSSub.cpp:67-101`. For `s = 0` the quotient `inpsy / inpss` is NaN and the test of line 85 is false. The rescaling of line 81 needs `inpsy > 0`,
so `y` is not zero there. -/
noncomputable def rbfgsSub (lambdaLower lambdaUpper : ℝ) (p : Call E) (H : E →ₗ[ℝ] E) : E →ₗ[ℝ] E :=
  let y := p.y
  let s := fixS lambdaUpper p.s y
  let inpsy := ⟪s, y⟫
  let H1 := if p.iter = 1 ∧ 0 < inpsy then (inpsy / ⟪y, y⟫) • LinearMap.id else H
  let H2 := tranH p.T H1
  let inpss := ⟪s, s⟫
  if inpss ≠ 0 ∧ lambdaLower < inpsy / inpss then bfgsThree H2 s y inpsy else LinearMap.id

/-- The memory of `LRBFGSSub`. -/
structure LSub (E : Type*) where
  buf : Buf E
  gamma : ℝ

/-- `LRBFGSSub::UpdateDataLRBFGSSub`, `LRBFGSSub.cpp:137-203`. A rejected pair empties the memory (`Currentlength = 0; beginidx = 0`; the loop of lines 194-198 makes no pass);
`gamma` keeps its value. -/
noncomputable def lrbfgsSub (lambdaLower lambdaUpper : ℝ) (p : Call E) (st : LSub E) : Option (LSub E) :=
  let y := p.y
  let s := fixS lambdaUpper p.s y
  if ⟪s, s⟫ ≠ 0 ∧ lambdaLower ≤ ⟪s, y⟫ / ⟪s, s⟫ then
    if ⟪y, y⟫ = 0 ∨ ⟪s, y⟫ = 0 then none
    else (st.buf.store p.T { s := s, y := y, rho := 1 / ⟪s, y⟫ }).map fun b => { buf := b, gamma := ⟪s, y⟫ / ⟪y, y⟫ }
  else some { st with buf := { st.buf with len := 0, beg := 0 } }

/-- The updates of a run. -/
noncomputable def lrbfgsSubRun (lambdaLower lambdaUpper : ℝ) : List (Call E) → LSub E → Option (LSub E)
  | [], st => some st
  | p :: ps, st => (lrbfgsSub lambdaLower lambdaUpper p st).bind (lrbfgsSubRun lambdaLower lambdaUpper ps)

/-- The updates of a run of `RBFGSSub`. -/
noncomputable def rbfgsSubRun (lambdaLower lambdaUpper : ℝ) : List (Call E) → (E →ₗ[ℝ] E) → (E →ₗ[ℝ] E)
  | [], H => H
  | p :: ps, H => rbfgsSubRun lambdaLower lambdaUpper ps (rbfgsSub lambdaLower lambdaUpper p H)

end Verif.SubDir
