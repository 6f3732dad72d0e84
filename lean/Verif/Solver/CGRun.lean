import Verif.Solver.Direction
import Verif.Solver.InitRule
import Verif.Solver.LRRun

/-!
# Runs of the steepest descent and conjugate gradient solvers

The run of `Verif.Solver.LSRun` for `RSD` and `RCG`, and the Barzilai-Borwein rule for the initial step, their default. Conventions as in `Verif.Solver.LRRun`. A metric that depends on the point is not
represented: lines 220-221 of SolversSMLS.cpp use the metric at the old point for vectors at the new one.
-/

namespace Verif.Solver

open scoped RealInnerProductSpace Classical

open Verif.Dir

variable {X E : Type} [NormedAddCommGroup E] [InnerProductSpace ℝ E]

/-- The search direction of `RSD` (RSD.cpp:26-35) after `past`; `c` is `sqrt(eps)`. -/
noncomputable def rsdDirection (G : Geo X E) (c : ℝ) (ub : E) : Past X → E
  | [] => ub
  | (x, _) :: _ => rsdDir c (G.P x) (G.grad x)

/-- The search direction of `RCG` after `past` (newest first): `UpdateData` is called after every search (SolversSMLS.cpp:103) and leaves a candidate, `GetSearchDir` is called at the next iteration (RCG.cpp:73-147).
`Pgf1` of `UpdateData` is the preconditioned gradient at the old point: set by `GetSearchDir` in the first iteration and by `UpdateData` afterwards (line 143). `none`: NaNs. -/
noncomputable def cgDir (G : Geo X E) (m : Method) (c : ℝ) : Past X → Option E
  | [] => none
  | [(x, _)] => rcgDir c (G.P x) 0 none (G.grad x)
  | (x2, t) :: (x1, u) :: p =>
    match cgDir G m c ((x1, u) :: p) with
    | none => none
    | some d =>
      rcgDir c (G.P x2) (p.length + 1)
        (rcgUpdate m (G.grad x1) (G.grad x2) (G.P x1 (G.grad x1)) (G.P x2 (G.grad x2)) (G.T x1 (t • d) (G.grad x1)) (G.T x1 (t • d) d)) (G.grad x2)

/-- The same as a vector; a vector of NaNs is counted as `ub`. -/
noncomputable def cgDirection (G : Geo X E) (m : Method) (c : ℝ) (ub : E) (past : Past X) : E := (cgDir G m c past).getD ub

/-! ## Barzilai-Borwein steps -/

/-- Quotient of floating point values. -/
noncomputable def Ext.div : Ext ℝ → Ext ℝ → Ext ℝ
  | .nan, _ => .nan
  | _, .nan => .nan
  | .fin a, .fin b => divExt a b
  | .fin _, _ => .fin 0
  | .pinf, .fin b => if b < 0 then .ninf else .pinf
  | .ninf, .fin b => if b < 0 then .pinf else .ninf
  | _, _ => .nan

/-- Parameters `BBratio`, `Num_pre_BB` (SolversSMLS.h:116-128). -/
structure BBCfg where
  ratio : ℝ
  num : ℕ

/-- `s` and `y`, SolversSMLS.cpp:217-219, for the last step of the past. -/
noncomputable def bbPair (G : Geo X E) (dir : Past X → E) (x2 : X) (t : ℝ) (x1 : X) (u : ℝ) (p : Past X) : E × E :=
  let eta2 := t • dir ((x1, u) :: p)
  (G.T x1 eta2 eta2, G.grad x2 - G.T x1 eta2 (G.grad x1))

/-- `BB1`, line 220. -/
noncomputable def bb1 (sy : E × E) : Ext ℝ := divExt ⟪sy.1, sy.1⟫ ⟪sy.1, sy.2⟫

/-- `BB2`, line 221. -/
noncomputable def bb2 (sy : E × E) : Ext ℝ := divExt ⟪sy.1, sy.2⟫ ⟪sy.2, sy.2⟫

/-- `pre_BBs` after lines 222-224, newest first, of a solver that was just constructed. -/
noncomputable def preBBs (G : Geo X E) (dir : Past X → E) (b : BBCfg) (init0 eps : ℝ) : Past X → List (Ext ℝ)
  | [] => []
  | [_] => []
  | (x2, t) :: (x1, u) :: p =>
    let v := bb2 (bbPair G dir x2 t x1 u p)
    ((if Ext.lt v (.fin eps) then divExt init0 ‖G.grad x2‖ else v) :: preBBs G dir b init0 eps ((x1, u) :: p)).take b.num

/-- The candidate of `LSSM_BBSTEP`, lines 226-246. -/
noncomputable def bbCand (G : Geo X E) (dir : Past X → E) (b : BBCfg) (init0 eps : ℝ) : Past X → Ext ℝ
  | (x2, t) :: (x1, u) :: p =>
    let sy := bbPair G dir x2 t x1 u p
    if b.ratio = 0 then bb1 sy
    else if b.ratio = 1 ∧ b.num = 0 then bb2 sy
    else
      let minpre := ((preBBs G dir b init0 eps ((x2, t) :: (x1, u) :: p)).take b.num).foldl (fun a j => if Ext.lt j a then j else a) (bb2 sy)
      if Ext.lt (Ext.div minpre (bb1 sy)) (.fin b.ratio) then minpre else bb1 sy
  | _ => .nan

/-- The initial step with `LSSM_BBSTEP`, default of `RSD` and `RCG` (RSD.cpp:22, RCG.cpp:24). -/
noncomputable def bbStep (G : Geo X E) (dir : Past X → E) (b : BBCfg) (init0 eps : ℝ) : Past X → ℝ := ruleStep G.land dir init0 eps (bbCand G dir b init0 eps)

end Verif.Solver
