import Verif.Solver.ObjectTR
import Verif.Solver.ObjectMat
import Verif.Manifold.SPD

/-!
# The solvers on the manifold of symmetric positive definite matrices

The environments of `Verif.Obj` for `SPDManifold` with the affine invariant metric, the second-order retraction and the vector transport by parallelization
(`ChooseParamsSet1`, SPDManifold.cpp), over the reals with exact arithmetic. With `IsIntrApproach = true` (the default) a tangent vector is the list of its coordinates,
with `false` it is a symmetric matrix.

`chol x` is the Cholesky factor kept in `x.Field("_L")` (LAPACK `potrf`): an oracle, its specification is a hypothesis of the theorems. As the field is a function of the point
it is not part of the point here. `junk` is the content of fresh memory. There is no preconditioner.
-/

namespace Verif.Obj

open Matrix Verif.Mat Verif.SPD Verif.Intr

variable {n : ℕ}

/-- `SPDManifold` with extrinsic vectors: `Metric` SPDManifold.cpp:58-71, `EucGradToGradAF` 340-356, `SecOrdRetraction` 237-261, `DiffSecOrdRetraction` 263-318,
`VectorTransportParallelization` 511-520. -/
noncomputable def spdExtrEnv (junk : ℕ → ℝ) (chol : Matrix (Fin n) (Fin n) ℝ → Matrix (Fin n) (Fin n) ℝ) (f : Matrix (Fin n) (Fin n) ℝ → ℝ)
    (G : Matrix (Fin n) (Fin n) ℝ → Matrix (Fin n) (Fin n) ℝ) : Env ℝ (Matrix (Fin n) (Fin n) ℝ) (Matrix (Fin n) (Fin n) ℝ) :=
  realEnv f (fun x => gradAF x (G x)) (fun x u v => metricAF x u v) (fun x η => secOrd (chol x) x η) (fun x η _ ξ => diffSecOrd (chol x) η ξ)
    (fun x _ y ξ => paraTransport junk (chol x) (chol y) ξ) (fun c v => c • v) (fun a v b w => a • v + b • w)

/-- `SPDManifold` with intrinsic vectors: the gradient is converted in Problem.cpp:61-70, the metric is the inner product of the coordinates (SPDManifold.cpp:60-61), the
retraction and its derivative convert their arguments (242-248, 269-280, 313-317), the transport leaves the coordinates alone (513-517). -/
noncomputable def spdIntrEnv (junk : ℕ → ℝ) (chol : Matrix (Fin n) (Fin n) ℝ → Matrix (Fin n) (Fin n) ℝ) (f : Matrix (Fin n) (Fin n) ℝ → ℝ)
    (G : Matrix (Fin n) (Fin n) ℝ → Matrix (Fin n) (Fin n) ℝ) : Env ℝ (Matrix (Fin n) (Fin n) ℝ) (List ℝ) :=
  realEnv f (fun x => spdIntrAF (chol x) (gradAF x (G x))) (fun _ u v => dot u v) (fun x c => secOrd (chol x) x (spdExtrAF junk (chol x) c))
    (fun x c y d => spdIntrAF (chol y) (diffSecOrd (chol x) (spdExtrAF junk (chol x) c) (spdExtrAF junk (chol x) d)))
    (fun _ _ _ ξ => ξ) (fun c v => v.map (c * ·)) (fun a v b w => List.zipWith (fun s t => a * s + b * t) v w)

/-- The operations of the trust-region solvers: `ScalarVectorAddVector`, Manifold.cpp:80-88; `Projection` is `IntrProjection`, the identity (Manifold.cpp:52-59). -/
noncomputable def spdIntrTR (junk : ℕ → ℝ) (chol : Matrix (Fin n) (Fin n) ℝ → Matrix (Fin n) (Fin n) ℝ) (f : Matrix (Fin n) (Fin n) ℝ → ℝ)
    (G : Matrix (Fin n) (Fin n) ℝ → Matrix (Fin n) (Fin n) ℝ) (pw : ℝ → ℝ) : TREnv ℝ (Matrix (Fin n) (Fin n) ℝ) (List ℝ) where
  toEnv := spdIntrEnv junk chol f G
  axpy c v w := List.zipWith (fun s t => c * s + t) v w
  proj _ v := v
  powtheta := pw

/-- The same with extrinsic vectors; `ExtrProjection`, SPDManifold.cpp:93-108. -/
noncomputable def spdExtrTR (junk : ℕ → ℝ) (chol : Matrix (Fin n) (Fin n) ℝ → Matrix (Fin n) (Fin n) ℝ) (f : Matrix (Fin n) (Fin n) ℝ → ℝ)
    (G : Matrix (Fin n) (Fin n) ℝ → Matrix (Fin n) (Fin n) ℝ) (pw : ℝ → ℝ) : TREnv ℝ (Matrix (Fin n) (Fin n) ℝ) (Matrix (Fin n) (Fin n) ℝ) where
  toEnv := spdExtrEnv junk chol f G
  axpy c v w := c • v + w
  proj _ v := SPD.proj junk v
  powtheta := pw

/-- `Problem::HessianEta` with extrinsic vectors (Problem.cpp:72-75), `SPDManifold::EucHvToHvAF` SPDManifold.cpp:358-363. -/
noncomputable def spdExtrHess (G : Matrix (Fin n) (Fin n) ℝ → Matrix (Fin n) (Fin n) ℝ) (H : Matrix (Fin n) (Fin n) ℝ → Matrix (Fin n) (Fin n) ℝ → Matrix (Fin n) (Fin n) ℝ)
    (x v : Matrix (Fin n) (Fin n) ℝ) : Matrix (Fin n) (Fin n) ℝ := hessAF x (G x) v (H x v)

/-- `Problem::HessianEta` with intrinsic vectors (Problem.cpp:72-81). -/
noncomputable def spdIntrHess (junk : ℕ → ℝ) (chol : Matrix (Fin n) (Fin n) ℝ → Matrix (Fin n) (Fin n) ℝ) (G : Matrix (Fin n) (Fin n) ℝ → Matrix (Fin n) (Fin n) ℝ)
    (H : Matrix (Fin n) (Fin n) ℝ → Matrix (Fin n) (Fin n) ℝ → Matrix (Fin n) (Fin n) ℝ) (x : Matrix (Fin n) (Fin n) ℝ) (c : List ℝ) : List ℝ :=
  let v := spdExtrAF junk (chol x) c
  spdIntrAF (chol x) (hessAF x (G x) v (H x v))

/-- The operators of the quasi-Newton solvers on coordinates: a dense matrix of the size of the intrinsic vectors. `LinearOPEEta` Manifold.cpp:19-35, `TranHInvTran`
Manifold.cpp:219-230 (`HasHHR` is false, SPDManifold.cpp:11: the operator is copied), `HaddScaledRank1OPE` 232-249, `ScaledIdOPE` Element.cpp:2854; `Beta` is one without locking
(SPDManifold.cpp:320-338). `H v` and the rank-one update read the buffer of the vectors. -/
noncomputable def spdOp (pm : ℝ → ℝ) (cvx : Bool) (nu : ℝ) (d : ℕ) : OpEnv ℝ (Matrix (Fin n) (Fin n) ℝ) (List ℝ) (Matrix (Fin d) (Fin d) ℝ) where
  app _ H v := List.ofFn fun i => ∑ j : Fin d, H i j * buf v j
  tran _ _ _ H := H
  rank1 _ H c u v := Matrix.of fun i j => H i j + c * buf u i * buf v j
  scaledId _ c := c • 1
  beta _ _ := 1
  powmu := pm
  isconvex := cvx
  nu := nu

end Verif.Obj
