import Verif.Solver.TrustRegion
import Verif.Solver.LRRun

/-!
# Runs of the Newton line-search solver

`RNewton` (Solvers/RNewton.cpp) as an instance of the run of `Verif.Solver.LSRun`: the search direction is computed by the truncated conjugate gradient method `tCG_LS` at the current iterate.
Points are an arbitrary type, the tangent spaces are identified with one inner product space `E`. Arithmetic is exact except that the machine epsilon of the test in line 136 is a parameter.
-/

namespace Verif.TR

open Verif.Solver (Geo Past)

/-- Parameters of `RNewton` (RNewton.cpp:18-27): `theta`, `kappa`, `Min_Inner_Iter`, `Max_Inner_Iter`, and the machine epsilon. `useRand` is `false`. -/
structure NCfg where
  theta : ℝ
  kappa : ℝ
  minInner : ℕ
  maxInner : ℕ
  eps : ℝ

variable {X E : Type} [NormedAddCommGroup E] [InnerProductSpace ℝ E]

/-- What `tCG_LS` sees at `x`: gradient, Hessian and preconditioner; there is no radius (RNewton.cpp:88-104). -/
def newtonLocal (G : Geo X E) (H P : X → E →ₗ[ℝ] E) (c : NCfg) (x : X) : Local E := ⟨G.grad x, H x, P x, 0, c.theta, c.kappa, c.minInner⟩

/-- `RNewton::GetSearchDir`, RNewton.cpp:62-66, after `past`; after a NaN any vector. -/
noncomputable def newtonDirection (G : Geo X E) (H P : X → E →ₗ[ℝ] E) (c : NCfg) (nan : E) : Past X → E
  | [] => nan
  | (x, _) :: _ => (newtonDir (newtonLocal G H P c x) c.eps c.maxInner).getD nan

end Verif.TR
