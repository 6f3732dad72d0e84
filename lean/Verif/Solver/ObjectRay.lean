import Verif.Solver.Object
import Verif.Solver.LineSearch

/-!
# The function a line search sees

The searches of `Verif.Solver.LineSearch` read the objective only through `SolversSMLS::h` and `SolversSMLS::dh`.
-/

namespace Verif.Obj

variable {K : Type} {X E : Type*}

/-- `SolversSMLS::h` and `SolversSMLS::dh` as functions of the member `stepsize`, SolversSMLS.cpp:463-479, with `f1` and `initialslope`. -/
def rayOf (env : Env K X E) (i : SearchIn K X E) : Solver.Ray K where
  f0 := i.f1
  slope := i.initialslope
  phi t := env.f (env.retr i.x1 (env.smul t i.eta1))
  der t :=
    let eta2 := env.smul t i.eta1
    let x2 := env.retr i.x1 eta2
    env.metric x2 (env.grad x2) (env.dretr i.x1 eta2 x2 i.eta1)

end Verif.Obj
