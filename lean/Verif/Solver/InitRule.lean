import Verif.Solver.LSRun

/-!
# The default rule for the initial step

`InitialStepSize` (Solvers/SolversSMLS.cpp:199-305) with `LSSM_QUADINTMOD`, the default of `LRBFGS`, `RBFGS` and the other line-search solvers, as a function of the past of a run.
-/

namespace Verif.Solver

variable {X V : Type}

/-- A floating point value that is used as a number. -/
def Ext.toReal : Ext ℝ → ℝ
  | .fin v => v
  | _ => 0

/-- `a * (f1 - pre_funs.front()) / initialslopepre`, SolversSMLS.cpp:207, 211. A zero slope is counted as NaN (the sign of the zero decides what it is). -/
noncomputable def quadPred (a df sl : ℝ) : Ext ℝ := if sl = 0 then .nan else .fin (a * df / sl)

/-- `stepsize = (stepsize > 1) ? 1 : stepsize`, line 212. -/
noncomputable def capOne : Ext ℝ → Ext ℝ
  | .fin v => .fin (if 1 < v then 1 else v)
  | x => x

/-- The initial step after `past` (newest first) for an arbitrary rule `cand`. `pre_funs.front()` is the previous value of the objective (line 130), `initialslopepre` the previous slope (135). -/
noncomputable def ruleStep (M : Land X V) (dir : Past X → V) (init0 eps : ℝ) (cand : Past X → Ext ℝ) : Past X → ℝ
  | [] => init0
  | [_] => (initialStep 0 init0 0 eps .nan .nan).toReal
  | (x2, t) :: (x1, u) :: p =>
    (initialStep (p.length + 1) init0 (M.gnorm x2) eps (quadPred 2 (M.f x2 - M.f x1) (M.slope x1 (dir ((x1, u) :: p)))) (cand ((x2, t) :: (x1, u) :: p))).toReal

/-- The candidate of `LSSM_QUADINTMOD`, lines 211-212. -/
noncomputable def quadIntModCand (M : Land X V) (dir : Past X → V) : Past X → Ext ℝ
  | (x2, _) :: (x1, u) :: p => capOne (quadPred (101 / 100 * 2) (M.f x2 - M.f x1) (M.slope x1 (dir ((x1, u) :: p))))
  | _ => .nan

/-- The default rule. -/
noncomputable def quadIntMod (M : Land X V) (dir : Past X → V) (init0 eps : ℝ) : Past X → ℝ := ruleStep M dir init0 eps (quadIntModCand M dir)

end Verif.Solver
