import Verif.Solver.TRRun
import Mathlib.Analysis.InnerProductSpace.LinearMap
import Mathlib.Analysis.SpecialFunctions.Pow.Real

/-!
# Trust-region solvers and the Newton line-search solver

Models of `SolversSMTR::tCG_TR`
(`SolversSMTR.cpp:143-240`) and `RNewton::tCG_LS` (`Solvers/RNewton.cpp:86-170`).
-/

namespace Verif.TR

open scoped RealInnerProductSpace Classical

open Verif.TRRun (Status)

/-! ## Truncated conjugate gradients -/

variable {E : Type*} [NormedAddCommGroup E] [InnerProductSpace ℝ E]

/-- The local problem: gradient, Hessian operator, preconditioner, radius and parameters. Projections onto
the tangent space are the identity here since all vectors are tangent. -/
structure Local (E : Type*) [NormedAddCommGroup E] [InnerProductSpace ℝ E] where
  g : E
  H : E →ₗ[ℝ] E
  P : E →ₗ[ℝ] E
  Delta : ℝ
  theta : ℝ
  kappa : ℝ
  minInner : Nat

/-- The variables of the inner loop. -/
structure CG (E : Type*) where
  eta : E
  Heta : E
  r : E
  delta : E
  ePe : ℝ
  ePd : ℝ
  dPd : ℝ
  zr : ℝ
  modelv : ℝ

/-- Initialisation for `useRand = false` (the default): lines 157-185 with `eta1 = 0` from `InitialVector`
(line 140). -/
noncomputable def Local.start (L : Local E) : CG E :=
  let z := L.P L.g
  let zr := ⟪z, L.g⟫
  { eta := 0, Heta := 0, r := L.g, delta := -z, ePe := 0, ePd := 0, dPd := zr, zr := zr, modelv := 0 }

/-- The convergence threshold of lines 213-215: `norm_r0 * min(norm_r0^theta, kappa)`. -/
noncomputable def Local.tol (L : Local E) : ℝ :=
  let tempnum := ‖L.g‖ ^ L.theta
  ‖L.g‖ * (if tempnum < L.kappa then tempnum else L.kappa)

/-- Status on convergence, lines 217-220. -/
noncomputable def Local.conv (L : Local E) : Status :=
  if L.kappa < ‖L.g‖ ^ L.theta then .lCon else .sCon

/-- The step to the boundary, line 194; `none` is NaN: `0/0` or the square root of a negative number. -/
noncomputable def tau (Delta : ℝ) (s : CG E) : Option ℝ :=
  let arg := s.ePd * s.ePd + s.dPd * (Delta * Delta - s.ePe)
  if s.dPd = 0 ∨ arg < 0 then none else some ((-s.ePd + Real.sqrt arg) / s.dPd)

/-- `e_Pe_new` of line 190. -/
noncomputable def ePeNew (s : CG E) (alpha : ℝ) : ℝ :=
  s.ePe + 2 * alpha * s.ePd + alpha * alpha * s.dPd

/-- The conjugate gradient step, lines 203-213: new iterate, image and residual. -/
noncomputable def cgMove (L : Local E) (s : CG E) (alpha : ℝ) : CG E :=
  let eta := s.eta + alpha • s.delta
  let Heta := s.Heta + alpha • L.H s.delta
  { s with
    eta := eta, Heta := Heta, r := s.r + alpha • L.H s.delta
    modelv := ⟪eta, L.g⟫ + 1 / 2 * ⟪eta, Heta⟫ }

/-- The new direction, lines 225-233. -/
noncomputable def cgDir (L : Local E) (s : CG E) (alpha : ℝ) (ePe : ℝ) : CG E :=
  let z := L.P s.r
  let zr := ⟪z, s.r⟫
  let beta := zr / s.zr
  { s with
    delta := beta • s.delta - z, zr := zr, ePe := ePe
    ePd := beta * (s.ePd + alpha * s.dPd), dPd := zr + beta * beta * s.dPd }

/-- The loop of `tCG_TR`, lines 186-234: `n` passes remain, `j` have been made. -/
noncomputable def tcg (L : Local E) : Nat → Nat → CG E → Option (E × Status)
  | 0, _, s => some (s.eta, .maxIter)
  | n + 1, j, s =>
    let dHd := ⟪s.delta, L.H s.delta⟫
    let alpha := s.zr / dHd
    if dHd ≤ 0 ∨ L.Delta * L.Delta ≤ ePeNew s alpha then
      (tau L.Delta s).map fun t => (s.eta + t • s.delta, if dHd < 0 then .negCurv else .excRegion)
    else
      let s1 := cgMove L s alpha
      if s.modelv ≤ s1.modelv then some (s1.eta, .error)
      else if L.minInner ≤ j ∧ ‖s1.r‖ ≤ L.tol then some (s1.eta, L.conv)
      else if s.zr = 0 then none
      else tcg L n (j + 1) (cgDir L s1 alpha (ePeNew s alpha))

/-- `tCG_TR` with `Max_Inner_Iter = maxInner`. -/
noncomputable def tCG (L : Local E) (maxInner : Nat) : Option (E × Status) := tcg L maxInner 0 L.start

/-! ## RNewton -/

/-- The loop of `RNewton::tCG_LS`, `RNewton.cpp:116-163`. The variable `Heta` is never updated, so the model
value is computed with the image of the initial (zero) vector. Returns `eta1`, `delta`, the number of
the last pass and the status. `eps` is the machine epsilon. -/
noncomputable def tcgLS (L : Local E) (eps : ℝ) :
    Nat → Nat → CG E → Option (E × E × Nat × Status)
  | 0, j, s => some (s.eta, s.delta, j, .maxIter)
  | n + 1, j, s =>
    let dHd := ⟪s.delta, L.H s.delta⟫
    let alpha := s.zr / dHd
    if dHd ≤ 0 then some (s.eta, s.delta, j, .negCurv)
    else
      let eta := s.eta + alpha • s.delta
      let newModel := ⟪eta, L.g⟫ + 1 / 2 * ⟪eta, (0 : E)⟫
      if s.modelv ≤ newModel ∨ -eps ≤ ⟪eta, L.g⟫ then some (eta, s.delta, j, .error)
      else
        let s1 := { cgMove L s alpha with modelv := newModel }
        if L.minInner ≤ j ∧ ‖s1.r‖ ≤ L.tol then some (eta, s.delta, j, L.conv)
        else if s.zr = 0 then none
        else tcgLS L eps n (j + 1) (cgDir L s1 alpha (ePeNew s alpha))

/-- `RNewton::GetSearchDir` with `tCG_LS`, `RNewton.cpp:62-66, 86-170`: when the loop was left with `j == 0` the
direction is replaced by `delta`. -/
noncomputable def newtonDir (L : Local E) (eps : ℝ) (maxInner : Nat) : Option E :=
  (tcgLS L eps maxInner 0 L.start).map fun r => if r.2.2.1 = 0 then r.2.1 else r.1

/-! ## The trust-region Newton solver as an instance of the outer loop -/

/-- A problem on a manifold as the trust-region Newton solver sees it: at each point a tangent space with
gradient, Hessian operator and preconditioner, and a retraction. -/
structure Prob (X : Type) (T : X → Type) [∀ x, NormedAddCommGroup (T x)] [∀ x, InnerProductSpace ℝ (T x)] where
  f : X → ℝ
  g : ∀ x, T x
  H : ∀ x, T x →ₗ[ℝ] T x
  P : ∀ x, T x →ₗ[ℝ] T x
  retr : ∀ x, T x → X
  x0 : X
  theta : ℝ
  kappa : ℝ
  minInner : Nat
  maxInner : Nat
  stopped0 : Bool
  stopped : Nat → X → X → Bool

variable {X : Type} {T : X → Type} [∀ x, NormedAddCommGroup (T x)] [∀ x, InnerProductSpace ℝ (T x)]

def Prob.local (p : Prob X T) (x : X) (Delta : ℝ) : Local (T x) :=
  ⟨p.g x, p.H x, p.P x, Delta, p.theta, p.kappa, p.minInner⟩

/-- The candidate of one pass, `SolversSMTR.cpp:39-51`: inner solver, retraction, model value. When the inner solver produced a NaN
vector the objective is NaN. -/
noncomputable def Prob.cand (p : Prob X T) (x : X) (Delta : ℝ) : TRRun.Cand ℝ X :=
  match tCG (p.local x Delta) p.maxInner with
  | some (eta, st) => ⟨p.retr x eta, ⟪eta, p.g x + (1 / 2 : ℝ) • p.H x eta⟫, st, true, .nan⟩
  | none => ⟨x, 0, .error, false, .nan⟩

/-- `RTRNewton` with the exact Hessian (`Solvers/RTRNewton.cpp`) as an environment of the loop. -/
noncomputable def Prob.env (p : Prob X T) : TRRun.Env ℝ X :=
  ⟨p.x0, p.f, fun x => ‖p.g x‖, fun _ => p.cand, p.stopped0, p.stopped⟩

end Verif.TR
