import Verif.Solver.ObjectTR
import Verif.Solver.ObjectMat

/-!
# The trust-region solvers on the Stiefel and Grassmann manifolds

The environments of `Verif.Solver.ObjectMat` with the further operations of the trust-region solvers, and the Riemannian Hessian. `pw` is `pow(·, theta)`; `H` is the user's
`EucHessianEta`. There is no preconditioner.
-/

namespace Verif.Obj

open Matrix Verif.Mat Verif.Stiefel Verif.Intr

variable {n p : ℕ}

/-- `Stiefel`, extrinsic vectors; `Projection`, Stiefel.cpp:111-117 and 125-139; `ScalarVectorAddVector`, Manifold.cpp:80-88. -/
noncomputable def stiefelExtrTR (hp : p ≤ n) (hhr : Matrix (Fin n) (Fin p) ℝ → Frame n p) (f : Matrix (Fin n) (Fin p) ℝ → ℝ) (G : Matrix (Fin n) (Fin p) ℝ → Matrix (Fin n) (Fin p) ℝ)
    (pw : ℝ → ℝ) : TREnv ℝ (Matrix (Fin n) (Fin p) ℝ) (Matrix (Fin n) (Fin p) ℝ) where
  toEnv := stiefelExtrEnv hp hhr f G
  axpy c v w := c • v + w
  proj x v := proj x v
  powtheta := pw

/-- `Stiefel`, intrinsic vectors; `IntrProjection` is the identity (Stiefel.cpp:119-123). -/
noncomputable def stiefelIntrTR (hp : p ≤ n) (junk : ℕ → ℝ) (hhr : Matrix (Fin n) (Fin p) ℝ → Frame n p) (f : Matrix (Fin n) (Fin p) ℝ → ℝ)
    (G : Matrix (Fin n) (Fin p) ℝ → Matrix (Fin n) (Fin p) ℝ) (pw : ℝ → ℝ) : TREnv ℝ (Framed n p) (List ℝ) where
  toEnv := stiefelIntrEnv hp junk hhr f G
  axpy c v w := List.zipWith (fun s t => c * s + t) v w
  proj _ v := v
  powtheta := pw

/-- `Grassmann`, extrinsic vectors; `ExtrProjection`, Grassmann.cpp:42-48. -/
noncomputable def grassExtrTR (hp : p ≤ n) (hhr : Matrix (Fin n) (Fin p) ℝ → Frame n p) (f : Matrix (Fin n) (Fin p) ℝ → ℝ) (G : Matrix (Fin n) (Fin p) ℝ → Matrix (Fin n) (Fin p) ℝ)
    (pw : ℝ → ℝ) : TREnv ℝ (Matrix (Fin n) (Fin p) ℝ) (Matrix (Fin n) (Fin p) ℝ) where
  toEnv := grassExtrEnv hp hhr f G
  axpy c v w := c • v + w
  proj x v := gProj x v
  powtheta := pw

/-- `Grassmann`, intrinsic vectors; `Manifold::IntrProjection` is the identity (Manifold.cpp:52-59). -/
noncomputable def grassIntrTR (hp : p ≤ n) (junk : ℕ → ℝ) (hhr : Matrix (Fin n) (Fin p) ℝ → Frame n p) (f : Matrix (Fin n) (Fin p) ℝ → ℝ)
    (G : Matrix (Fin n) (Fin p) ℝ → Matrix (Fin n) (Fin p) ℝ) (pw : ℝ → ℝ) : TREnv ℝ (Framed n p) (List ℝ) where
  toEnv := grassIntrEnv hp junk hhr f G
  axpy c v w := List.zipWith (fun s t => c * s + t) v w
  proj _ v := v
  powtheta := pw

/-- `Problem::HessianEta` with extrinsic vectors (Problem.cpp:72-75), `Stiefel::EucHvToHv`. -/
noncomputable def stiefelExtrHess (G : Matrix (Fin n) (Fin p) ℝ → Matrix (Fin n) (Fin p) ℝ) (H : Matrix (Fin n) (Fin p) ℝ → Matrix (Fin n) (Fin p) ℝ → Matrix (Fin n) (Fin p) ℝ)
    (x v : Matrix (Fin n) (Fin p) ℝ) : Matrix (Fin n) (Fin p) ℝ := hess x (G x) v (H x v)

/-- `Problem::HessianEta` with intrinsic vectors (Problem.cpp:72-81), `Stiefel::EucHvToHv`. -/
noncomputable def stiefelIntrHess (junk : ℕ → ℝ) (G : Matrix (Fin n) (Fin p) ℝ → Matrix (Fin n) (Fin p) ℝ)
    (H : Matrix (Fin n) (Fin p) ℝ → Matrix (Fin n) (Fin p) ℝ → Matrix (Fin n) (Fin p) ℝ) (x : Framed n p) (c : List ℝ) : List ℝ :=
  let v := stiefelExtr junk x.2.1 x.2.2 c
  stiefelIntr x.2.1 x.2.2 (hess x.1 (G x.1) v (H x.1 v))

/-- The same with `Grassmann::EucHvToHv` (Grassmann.cpp:204-210). -/
def grassExtrHess (G : Matrix (Fin n) (Fin p) ℝ → Matrix (Fin n) (Fin p) ℝ) (H : Matrix (Fin n) (Fin p) ℝ → Matrix (Fin n) (Fin p) ℝ → Matrix (Fin n) (Fin p) ℝ)
    (x v : Matrix (Fin n) (Fin p) ℝ) : Matrix (Fin n) (Fin p) ℝ := gHess x (G x) v (H x v)

/-- The same with intrinsic vectors. -/
noncomputable def grassIntrHess (junk : ℕ → ℝ) (G : Matrix (Fin n) (Fin p) ℝ → Matrix (Fin n) (Fin p) ℝ)
    (H : Matrix (Fin n) (Fin p) ℝ → Matrix (Fin n) (Fin p) ℝ → Matrix (Fin n) (Fin p) ℝ) (x : Framed n p) (c : List ℝ) : List ℝ :=
  let v := grassExtr junk x.2.1 c
  grassIntr x.2.1 (gHess x.1 (G x.1) v (H x.1 v))

end Verif.Obj
