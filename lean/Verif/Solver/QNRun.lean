import Verif.Solver.QuasiNewton
import Verif.Solver.LRRun

/-!
# Runs of the quasi-Newton line-search solvers

The run of `Verif.Solver.LSRun` for `RBFGS`, `RWRBFGS` and `RBroydenFamily`: the search direction is `-H gf1` with the operator updated on the way. Conventions as in `Verif.Solver.LRRun`.
-/

namespace Verif.Solver

open scoped RealInnerProductSpace

open Verif.QN

variable {X E : Type} [NormedAddCommGroup E] [InnerProductSpace ℝ E]

inductive QNKind | rbfgs | rwrbfgs | rbroyden

/-- `UpdateData` of the three solvers (RBFGS.cpp:104-107, RWRBFGS.cpp:102-105, RBroydenFamily.cpp:103-106); the library's `Phi` is one. `cot` is the result of `coTangentVector(x1, eta2, x2, gf2)`. -/
noncomputable def qnUpdate (k : QNKind) (c : Cautious) (cot : E) (p : Call E) (H : E →ₗ[ℝ] E) : Option (E →ₗ[ℝ] E) :=
  match k with
  | .rbfgs => rbfgs c p H
  | .rwrbfgs => rwrbfgs c p cot H
  | .rbroyden => rbroyden c 1 p H

/-- The operator after the iterations of `past` (newest first), starting from the operator `H0` given to the constructor (RBFGS.cpp:17-41). `UpdateData` is called after every search (SolversSMLS.cpp:103)
with `eta2 = stepsize * eta1` and with `ngf2` still the norm of the gradient at the old point. `none`: division by zero. -/
noncomputable def qnMem (G : Geo X E) (cot : X → E → E → E) (k : QNKind) (c : Cautious) (H0 : E →ₗ[ℝ] E) (ngf0 : ℝ) : Past X → Option (E →ₗ[ℝ] E)
  | [] => some H0
  | [_] => some H0
  | (x2, t) :: (x1, u) :: p =>
    match qnMem G cot k c H0 ngf0 ((x1, u) :: p) with
    | none => none
    | some H =>
      let eta2 := t • qnDir H (G.grad x1)
      qnUpdate k c (cot x1 eta2 (G.grad x2))
        { T := G.T x1 eta2, eta2 := eta2, gf1 := G.grad x1, gf2 := G.grad x2, beta := G.beta x1 eta2, ngf2 := ‖G.grad x1‖, ngf0 := ngf0, iter := p.length + 1 } H

/-- The search direction after `past`; after a division by zero any vector. -/
noncomputable def qnDirection (G : Geo X E) (cot : X → E → E → E) (k : QNKind) (c : Cautious) (H0 : E →ₗ[ℝ] E) (ngf0 : ℝ) (ub : E) : Past X → E
  | [] => ub
  | (x, t) :: p =>
    match qnMem G cot k c H0 ngf0 ((x, t) :: p) with
    | none => ub
    | some H => qnDir H (G.grad x)

end Verif.Solver
